import Verif.Store.History

/-!
# Model of programs with different atomicity options on one directory

Models `/repo/checkpoint/orbax/checkpoint/_src/path/atomicity_defaults.py` and how its result is used: a program writes with the class that its
`temporary_path_class` and `AtomicityOptions` give for the path (`Checkpointer.get_temporary_path`, _src/checkpointers/checkpointer.py:153-168), and it reads,
lists and cleans up with the same class and `allow_legacy_atomic_rename` (checkpointer.py:317-321, checkpoint_manager.py:863-881).  Saves, clean-up and
deletion are those of `Verif.Store.Model`.  Whether the root is on Google Cloud Storage is a flag `gcs`.
-/

namespace Verif.Store

open Verif.NameFormat (Name tmpSuffix)
open Verif.Assoc

/-- `AtomicityMode`, options.py:65-70. -/
inductive Mode | auto | commitFile | atomicRename
deriving DecidableEq, Repr

/-- How a program is configured: `temporary_path_class`, and `atomicity_options` with its `mode` and `allow_legacy_atomic_rename`. -/
structure Conf where
  cls : Option Protocol
  options : Option (Mode × Bool)
deriving DecidableEq, Repr

/-- `_resolve_temporary_path_class_from_options`, atomicity_defaults.py:41-66.  The `ValueError` for an unknown mode cannot occur with the enumeration. -/
def explicitClass : Option (Mode × Bool) → Option Protocol
  | none => none
  | some (.auto, _) => none
  | some (.commitFile, _) => some .commitFile
  | some (.atomicRename, _) => some .atomicRename

/-- `get_default_temporary_path_class`, atomicity_defaults.py:99-127. -/
def defaultClass (gcs : Bool) (options : Option (Mode × Bool)) : Protocol :=
  match explicitClass options with
  | some p => p
  | none => if gcs then .commitFile else .atomicRename

/-- The class and the flag with which a program works: `temporary_path_cls or get_default_temporary_path_class(...)`, temporary_paths.py:70-75, 126-131
and checkpointer.py:156-161. -/
def Conf.opts (gcs : Bool) (c : Conf) : Opts where
  protocol := match c.cls with
    | some p => p
    | none => defaultClass gcs c.options
  legacy := match c.options with
    | some (_, l) => l
    | none => false

/-- One event caused by a program with configuration `c`.  Deleting looks for temporary directories without the options (`find_step_path`, step.py:286). -/
def runConf (gcs : Bool) (ord : List Name → List Name) (fs : FS) (c : Conf) : Op → FS × Bool
  | .save r k => match saveActs (c.opts gcs).protocol ord fs r with
    | none => (fs, false)
    | some acts => runCrash fs acts k
  | .restart k => runCrash fs (cleanupActs ord (c.opts gcs) fs) k
  | .delete n =>
    ((delete ord true .permanent (defaultClass gcs none) (c.opts gcs) ⟨fs, []⟩ n).1.root,
      (delete ord true .permanent (defaultClass gcs none) (c.opts gcs) ⟨fs, []⟩ n).2)

/-- A history of events of programs with different configurations. -/
def runAll (gcs : Bool) (ord : List Name → List Name) (fs : FS) (h : List (Conf × Op)) : FS :=
  h.foldl (fun fs e => (runConf gcs ord fs e.1 e.2).1) fs

/-- `Checkpointer.restore` gets past its checks, checkpointer.py:315-322. -/
def v0Accepts (o : Opts) (n : Name) : Option Node → Bool
  | none => false
  | some x => isFinalized o n x

/-- The layouts of V1 get past their checks for existence and completeness, experimental/v1/_src/layout/orbax_layout.py:353-363 and
orbax_v0_layout.py:201-211. -/
def v1Accepts (o : Opts) (n : Name) : Option Node → Bool
  | none => false
  | some x => isDir x && !isTemporary o n x

end Verif.Store
