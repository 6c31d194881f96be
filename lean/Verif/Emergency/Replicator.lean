import Verif.Emergency.Mesh
import Verif.Policies.Model

/-!
# Model of the replicator checkpoint manager

Models `ReplicatorCheckpointManager` without colocated Python,
`/repo/checkpoint/orbax/checkpoint/experimental/emergency/multi_tier_checkpointing/replicator_checkpoint_manager.py` (RCM below), with
`process_metadata_checkpoint_handler.py` and `experimental/emergency/mesh_consistency.py`: a manager for process-local storage and, if there is a
persistent directory, a second manager for the dataset.

Simplifications.  A manager is its list of steps with their contents: storage and cached list agree (see C10), saves commit, and deletions
succeed; `Verif.Manager` has the failures.  An item of the state is one array; trees are treated leaf by leaf.  An array is a value (shard) for
every position of the mesh.  Exceptions are `none`, or `raised`.  Not modelled: sidecars, custom metadata, waiting and closing,
single-device shardings, contents of the handler registry (items other than the dataset need `PyTreeSave` and `PyTreeRestore` arguments).
-/

namespace Verif.Emergency.Replicator

open Verif Verif.Emergency.Mesh
open Verif.Policies (Ckpt)

abbrev Name := List Char

/-- RCM:66-68. -/
def stateName : Name := ['s', 't', 'a', 't', 'e']
def processName : Name := ['p', 'r', 'o', 'c', 'e', 's', 's', '_', 'm', 'e', 't', 'a', 'd', 'a', 't', 'a']
def datasetName : Name := ['d', 'a', 't', 'a', 's', 'e', 't']

/-- One incarnation of the job: `distributed_to_device_ids()`, the ids of `jax.devices()`, and the flattened device ids of the global mesh. -/
structure Inc where
  ids : List (List Nat)
  devices : List Nat
  mesh : List Nat

/-! ### One manager -/

structure Info (α : Type) where
  step : Int
  time : Int
  data : α

abbrev Mgr (α : Type) := List (Info α)

/-- The options passed on by `_get_checkpoint_manager_options`, RCM:201-218: `should` stands for the save decision policy made of
`save_interval_steps` or `should_save_fn` (checkpoint_manager.py:184-210), a function of the step, the steps there are, and preemption;
`keep` for the preservation policy. -/
structure Cfg where
  should : Int → List Int → Bool → Bool
  keep : List Ckpt → List Bool

def Mgr.steps {α} (m : Mgr α) : List Int := m.map (·.step)

/-- `latest_step`, checkpoint_manager.py:1173-1182. -/
def Mgr.latest {α} (m : Mgr α) : Option Int := m.getLast?.map (·.step)

/-- `should_save`, checkpoint_manager.py:1213-1250. -/
def Mgr.shouldSave {α} (cfg : Cfg) (m : Mgr α) (step : Int) (preempted : Bool) : Bool :=
  match m.latest with
  | some l => if l ≥ step then false else cfg.should step m.steps preempted
  | none => cfg.should step m.steps preempted

/-- The steps that stay, checkpoint_manager.py:2001-2017: `zip` stops at the shorter list, and the steps behind it stay. -/
def Mgr.trim {α} : List Bool → Mgr α → Mgr α
  | [], m => m
  | _, [] => []
  | f :: fs, i :: m => if f then i :: Mgr.trim fs m else Mgr.trim fs m

/-- `save`, checkpoint_manager.py:1334-1612.  `none`: `StepAlreadyExistsError`. -/
def Mgr.save {α} (cfg : Cfg) (m : Mgr α) (step time : Int) (force preempted : Bool) (x : α) : Option (Mgr α × Bool) :=
  if !force && !m.shouldSave cfg step preempted then some (m, false)
  else if m.steps.contains step then none
  else
    let m := m ++ [⟨step, time, x⟩]
    some (m.trim (cfg.keep (m.map fun i => ⟨i.step, i.time, none⟩)), true)

/-- `delete`, checkpoint_manager.py:1274-1303.  `none`: `FileNotFoundError`. -/
def Mgr.delete {α} (m : Mgr α) (step : Int) : Option (Mgr α) :=
  if m.steps.contains step then some (m.filter fun i => !(i.step == step)) else none

/-- Loading the steps when the manager is made: sorted by step, checkpoint_manager.py:1845. -/
def Mgr.insert {α} (i : Info α) : Mgr α → Mgr α
  | [] => [i]
  | j :: m => if i.step ≤ j.step then i :: j :: m else j :: Mgr.insert i m

def Mgr.load {α} : Mgr α → Mgr α
  | [] => []
  | i :: m => Mgr.insert i (Mgr.load m)

/-- Reading a step's directory. -/
def Mgr.find {α} (m : Mgr α) (step : Int) : Option α := (List.find? (fun i => i.step == step) m).map (·.data)

/-! ### The two managers -/

/-- An array in process-local storage: what host `h` has for position `k`. -/
abbrev Stored (V : Type) := Nat → Nat → Option V

/-- A step in local storage: the items, and the process metadata (mesh_consistency.py:68-86). -/
structure Local (V : Type) where
  items : List (Name × Stored V)
  ids : List (List Nat)
  mesh : List Nat

structure St (V D : Type) where
  inc : Inc
  loc : Mgr (Local V)
  /-- `_persistent_checkpoint_manager` -/
  per : Option (Mgr D)

/-- Arguments of `save`, `items` without the dataset; `now` and `nowDataset` are the clock when each manager saves. -/
structure SaveCall (V D : Type) where
  step : Int
  items : List (Name × (Nat → V))
  dataset : Option D
  force : Bool
  preempted : Bool
  now : Int
  nowDataset : Int

inductive Out | saved | skipped | raised | done
  /-- the local manager has saved, the persistent manager raises -/
  | raisedDataset
  deriving DecidableEq

/-- Every process writes the shards of its own devices. -/
def store {V} (inc : Inc) (x : Nat → V) : Stored V := fun h k => if (inc.mesh[k]?).bind (hostOf inc.ids) = some h then some (x k) else none

/-- `_validate_and_standardize_args`, RCM:982-1032, as far as it concerns names. -/
def validNames (names : List Name) : Bool := names.contains stateName && !names.contains processName

/-- What the local manager is given, RCM:416-424. -/
def localOf {V D} (inc : Inc) (c : SaveCall V D) : Local V :=
  ⟨(c.items.filter fun x => !(x.1 == datasetName)).map fun x => (x.1, store inc x.2), inc.ids, inc.mesh⟩

/-- `save`, RCM:1034-1049 and 394-444. -/
def save {V D} (cfg : Cfg) (st : St V D) (c : SaveCall V D) : St V D × Out :=
  if !validNames (c.items.map (·.1)) then (st, .raised)
  else if !c.force && !st.loc.shouldSave cfg c.step c.preempted then (st, .skipped)
  else match st.loc.save cfg c.step c.now c.force c.preempted (localOf st.inc c) with
    | none => (st, .raised)
    | some (_, false) => (st, .skipped)
    | some (loc, true) => match st.per, c.dataset with
      | some per, some d => match per.save cfg c.step c.nowDataset c.force c.preempted d with
        | none => ({ st with loc := loc }, .raisedDataset)
        | some (per, _) => ({ st with loc := loc, per := some per }, .saved)
      | _, _ => ({ st with loc := loc }, .saved)

/-- `delete`, RCM:389-392. -/
def delete {V D} (st : St V D) (step : Int) : St V D × Out :=
  match st.per with
  | none => match st.loc.delete step with
    | none => (st, .raised)
    | some loc => ({ st with loc := loc }, .done)
  | some per => match per.delete step with
    | none => (st, .raised)
    | some per => match st.loc.delete step with
      | none => ({ st with per := some per }, .raised)
      | some loc => ({ st with per := some per, loc := loc }, .done)

/-- How an array is to be placed: `PyTreeRestore` without restore arguments; with a sharding; with a mesh and axes only; with neither. -/
inductive Place | infer | named | meshAxes | unplaced
  deriving DecidableEq

/-- Restore arguments of an item: `PyTreeRestore`, or other `CheckpointArgs`. -/
inductive Arg | tree (p : Place) | other
  deriving DecidableEq

/-- A restored item: an array as the list of its devices and shards, or a dataset. -/
inductive Val (V D : Type)
  | array (shards : List (Nat × V))
  | data (d : D)

/-- `_can_use_mesh_consistency`, RCM:221-248. -/
def compatible (previous current : List (List Nat)) (mesh : List Nat) : Bool :=
  previous.length == current.length && previous.flatten.length == current.flatten.length && mesh.length == current.flatten.length

/-- `_materialize_restore_args_from_metadata`, RCM:519-551: the item's metadata has to exist; the saved partition spec on the global mesh. -/
def materialize {V} (d : Local V) (args : List (Name × Arg)) : Option (List (Name × Arg)) :=
  args.mapM fun (k, a) => match a with
    | .tree .infer => (Assoc.get d.items k).map fun _ => (k, .tree .named)
    | _ => some (k, a)

/-- Reading an array whose sharding is on the mesh `rest`: every device's process reads its shard from its own storage. -/
def readShards {V} (inc : Inc) (rest : List Nat) (x : Stored V) : Option (List V) :=
  allSome (rest.zipIdx.map fun (c, k) => (hostOf inc.ids c).bind fun h => x h k)

/-- `consistent_restore_mesh_from_metadata`, mesh_consistency.py:89-145; the list of devices is reshaped to the mesh's shape. -/
def restMesh {V} (inc : Inc) (d : Local V) : Option (List Nat) :=
  match restoreMesh d.ids inc.ids inc.devices [d.mesh] with
  | some [rest] => if rest.length = inc.mesh.length then some rest else none
  | _ => none

/-- Is the item restored from local storage?  RCM:501-512. -/
def Arg.isTree : Arg → Bool
  | .tree _ => true
  | .other => false

/-- `consistent_restore_mesh_to_global_mesh`, RCM:641-663 and mesh_consistency.py:148-166: `device_put` without a sharding leaves the
array where it is. -/
def place {V D} (inc : Inc) (rest : List Nat) (a : Arg) : List V ⊕ D → Val V D
  | .inr d => .data d
  | .inl vs => match a with
    | .tree .meshAxes => .array (rest.zip vs)
    | _ => .array (inc.mesh.zip vs)

/-- `self._impl.restore(step, args=restore_args)`, RCM:706: an item that is not there raises. -/
def readLocal {V} (D : Type) (inc : Inc) (rest : List Nat) (d : Local V) (args : List (Name × Arg)) : Option (List (Name × (List V ⊕ D))) :=
  (args.filter fun a => a.2.isTree).mapM fun a =>
    (((Assoc.get d.items a.1).bind (readShards inc rest)).map Sum.inl).map fun v => (a.1, v)

/-- The dataset is read from the persistent manager, RCM:708-722. -/
def addDataset {V D} (per : Option (Mgr D)) (step : Int) (args : List (Name × Arg)) (got : List (Name × (List V ⊕ D))) :
    Option (List (Name × (List V ⊕ D))) :=
  match per with
  | none => some got
  | some per => if (args.map (·.1)).contains datasetName then (per.find step).map fun d => Assoc.put got datasetName (.inr d) else some got

/-- `_restore_single_step`, RCM:694-738, with `_restore_placement_plan` and `_get_mesh_consistent_args`. -/
def restoreStep {V D} (st : St V D) (step : Int) (args : List (Name × Arg)) : Option (List (Name × Val V D)) :=
  (st.loc.find step).bind fun d =>
  (materialize d args).bind fun args =>
  if !compatible d.ids st.inc.ids d.mesh then none
  else (restMesh st.inc d).bind fun rest =>
    if args.any fun a => a.2 == .tree .unplaced then none
    else (readLocal D st.inc rest d args).bind fun got =>
      (addDataset st.per step args got).bind fun got =>
      args.mapM fun a => (Assoc.get got a.1).map fun v => (a.1, place st.inc rest a.2 v)

/-- `restore`, RCM:1104-1119 and 665-692; arguments other than `PyTreeRestore` are refused unless they are for the dataset (RCM:1011-1031). -/
def restore {V D} (st : St V D) (step : Option Int) (args : List (Name × Arg)) : Option (List (Name × Val V D)) :=
  if !validNames (args.map (·.1)) || args.any fun a => !a.2.isTree && a.1 != datasetName then none
  else match step with
    | some s => restoreStep st s args
    | none => match st.loc.latest with
      | none => none
      | some s => restoreStep st s args

/-- `save_interval_steps` and no `should_save_fn`: the interval, preemption, or no steps so far, checkpoint_manager.py:184-210. -/
def interval (n : Nat) (step : Int) (steps : List Int) (preempted : Bool) : Bool := step % n == 0 || preempted || steps.isEmpty

/-- Events.  After a restart the replicator service has provided the local steps given by `keep`. -/
inductive Ev (V D : Type)
  | save (c : SaveCall V D)
  | delete (step : Int)
  | restart (inc : Inc) (keep : Int → Bool)

def exec {V D} (cfg : Cfg) (st : St V D) : Ev V D → St V D × Out
  | .save c => save cfg st c
  | .delete s => delete st s
  | .restart inc keep => (⟨inc, Mgr.load (st.loc.filter fun i => keep i.step), st.per.map Mgr.load⟩, .done)

/-- A history: the events with what was returned, and the final state. -/
def run {V D} (cfg : Cfg) (st : St V D) : List (Ev V D) → List (Ev V D × Out) × St V D
  | [] => ([], st)
  | e :: es =>
    let r := exec cfg st e
    let q := run cfg r.1 es
    ((e, r.2) :: q.1, q.2)

end Verif.Emergency.Replicator
