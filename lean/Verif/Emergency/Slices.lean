import Verif.Assoc

/-!
# The multislice emergency manager: which steps are complete, and what `restore` does

Models `experimental/emergency/path.py` and the parts of `experimental/emergency/checkpoint_manager.py`
(`_MultisliceCheckpointManager`) that list, cache, save and restore steps, and
`_src/multihost/multislice.py:35-53`, all under `checkpoint/orbax/checkpoint`.

A mesh is given by its replicas (slices): for each one, the process of each of its devices.
-/
namespace Verif.Emergency.Slices
open Verif.Assoc

abbrev Mesh := List (List Nat)

/-- `sync_global_data`, `path.py:31-74`, on the bytes: every process pads its bytes with zeros to the
greatest length, and the receivers cut them at the lengths exchanged before. -/
def exchange (data : List (List Nat)) : List (List Nat) :=
  let lens := data.map List.length
  let maxLen := lens.foldl max 0
  let padded := data.map fun b => (b ++ List.replicate (maxLen - b.length) 0).take maxLen
  (padded.zip lens).map fun x => x.1.take x.2

/-- `process_replica_id`, `multislice.py:35-53`: the first replica with a device of the process; `none`
stands for -1. -/
def processReplica (mesh : Mesh) (pid : Nat) : Option Nat :=
  mesh.findIdx? fun row => row.contains pid

/-- The values of all processes of a replica together, `path.py:103-108`. -/
def perReplica (mesh : Mesh) (vals : List (Nat × List Nat)) : List (Option Nat × List Nat) :=
  vals.foldl (fun m e => put m (processReplica mesh e.1)
    ((Assoc.get m (processReplica mesh e.1)).getD [] ++ e.2)) []

/-- `num_processes_per_replica`, `path.py:100-102`. -/
def processesPerReplica (mesh : Mesh) (localDevices : Nat) : Nat :=
  mesh.flatten.length / mesh.length / localDevices

/-- `_common_values_per_replica`, `path.py:77-124`: the values that occur as often as a replica has
processes (the sets are lists, possibly with repetitions). -/
def commonValues (mesh : Mesh) (localDevices : Nat) (vals : List (Nat × List Nat)) :
    List (Option Nat × List Nat) :=
  (perReplica mesh vals).map fun e =>
    (e.1, e.2.filter fun v => decide (e.2.count v = processesPerReplica mesh localDevices))

/-- What is in storage: for each process the steps finished in its local directory, and the steps
finished in the persistent directory. -/
structure Store where
  locals : List (Nat × List Nat)
  persistent : List Nat

/-- The local steps of `all_steps`, `checkpoint_manager.py:659-660`. -/
def localSteps (mesh : Mesh) (localDevices : Nat) (s : Store) : List Nat :=
  (commonValues mesh localDevices s.locals).flatMap fun e => e.2

/-- `all_steps`, `checkpoint_manager.py:642-687`. -/
def allSteps (mesh : Mesh) (localDevices : Nat) (s : Store) : List Nat :=
  localSteps mesh localDevices s ++ s.persistent

/-- Where `restore` reads a step. -/
inductive Source
  | slice (id : Nat)
  | persistent
  | error
deriving DecidableEq, Repr

/-- `_find_slice_with_complete_local_checkpoint`, `checkpoint_manager.py:852-859`. -/
def findSlice (mesh : Mesh) (localDevices : Nat) (s : Store) (step : Nat) : Option Nat :=
  match (commonValues mesh localDevices s.locals).find? fun e => e.2.contains step with
  | some e => e.1
  | none => none

/-- `restore` of a given step, `checkpoint_manager.py:1209-1230`: `_restore_from_persistent` fails if
the step is not there. -/
def restoreStep (mesh : Mesh) (localDevices : Nat) (s : Store) (step : Nat) : Source :=
  match findSlice mesh localDevices s step with
  | some id => .slice id
  | none => if s.persistent.contains step then .persistent else .error

/-- The manager's cached latest steps, `checkpoint_manager.py:580-586`. -/
structure Mgr where
  localLatest : Option Nat
  persistentLatest : Option Nat

/-- The effect of `all_steps` on the caches, `checkpoint_manager.py:683-686`. -/
def refresh (mesh : Mesh) (localDevices : Nat) (s : Store) : Mgr :=
  ⟨(localSteps mesh localDevices s).max?, s.persistent.max?⟩

/-- `latest_step`, `checkpoint_manager.py:689-704`. -/
def latestStep (m : Mgr) : Option Nat :=
  match m.localLatest, m.persistentLatest with
  | none, p => p
  | some l, none => some l
  | some l, some p => some (max l p)

/-- The effect of `save` on the caches, `checkpoint_manager.py:828-842`: whether the two managers said
that they save the step, on any process. -/
def save (m : Mgr) (step : Nat) (persistentSaved localSaved : Bool) : Mgr :=
  ⟨if localSaved then some step else m.localLatest,
   if persistentSaved then some step else m.persistentLatest⟩

/-- The first test of `should_save`, `checkpoint_manager.py:745-748`. -/
def refusesOld (m : Mgr) (step : Nat) : Bool :=
  match latestStep m with
  | some l => decide (step ≤ l)
  | none => false

/-- `restore(None)`, `checkpoint_manager.py:1215-1220`. -/
def restoreLatest (mesh : Mesh) (localDevices : Nat) (s : Store) (m : Mgr) : Option Nat × Source :=
  match latestStep m with
  | none => (none, .error)
  | some step => (some step, restoreStep mesh localDevices s step)

end Verif.Emergency.Slices
