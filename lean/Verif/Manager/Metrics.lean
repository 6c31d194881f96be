import Verif.Policies.Model

/-!
# The metrics a manager ranks checkpoints by

Models the way of the `metrics` of `CheckpointManager.save` (checkpoint_manager.py:1335-1590): the list of checkpoints
keeps the object it is given (`_add_checkpoint_info`, 1857-1862), the background thread writes it as JSON
(`args_lib.JsonSave(metrics)`, 1519-1522; C101), and `_load_checkpoint_infos` (1806-1855) reads the files when a manager
is created.

Simplifications: `best_fn` of an object is a number; the metrics are written when the save commits (in a save that is
not asynchronous this is within `save`: a schedule in which nothing comes between); steps are deleted when the save
commits; saves do not fail (C12); the policy is `BestN` (preservation_policy.py:311-348).
-/

namespace Verif.Manager.Metrics

open Verif.Policies

/-- A save that is not committed: the step, its metrics object, the steps to remove. -/
structure Pending where
  step : Int
  ref : Nat
  remove : List Int

/-- The values of the metrics objects of the program, the checkpoints in the memory of the manager with the objects they
refer to, the save in progress, and the checkpoints in storage with what the files say. -/
structure State where
  heap : Nat → Int
  infos : List (Int × Nat)
  pending : Option Pending
  disk : List (Int × Int)

/-- A new manager in an empty directory. -/
def init (heap : Nat → Int) : State := ⟨heap, [], none, []⟩

inductive Act where
  /-- the program assigns to a metrics object -/
  | assign (ref : Nat) (x : Int)
  /-- `save(step, metrics=...)` -/
  | save (step : Int) (ref : Nat)
  /-- the save in progress commits, and old steps are removed -/
  | commit

structure Cfg where
  /-- `best_mode='min'` -/
  reverse : Bool
  n : Int

/-- What the policy is shown: the objects as they are now, checkpoint_manager.py:1857-1862. -/
def shown (heap : Nat → Int) (infos : List (Int × Nat)) : List Ckpt := infos.map fun i => ⟨i.1, 0, some (heap i.2)⟩

/-- `_get_old_steps_to_remove`, checkpoint_manager.py:2001-2017. -/
def toRemove (cfg : Cfg) (heap : Nat → Int) (infos : List (Int × Nat)) : List Int :=
  (infos.zip (bestN cfg.reverse (some cfg.n) true (shown heap infos))).filterMap fun p => if p.2 then none else some p.1.1

/-- The save in progress commits and `_finalize` deletes steps, checkpoint_manager.py:2158-2172. -/
def commit (s : State) : State :=
  match s.pending with
  | none => s
  | some p => { s with
      pending := none
      disk := (s.disk ++ [(p.step, s.heap p.ref)]).filter fun e => !p.remove.contains e.1 }

/-- `save`: it waits for the save in progress, raises `StepAlreadyExistsError` for a step of the list, hands over the new
save, and takes old steps off the list, checkpoint_manager.py:1459, 1474-1477, 1536-1552. -/
def save (cfg : Cfg) (s : State) (step : Int) (ref : Nat) : State :=
  let s := commit s
  if (s.infos.map (·.1)).contains step then s else
  let infos := s.infos ++ [(step, ref)]
  let rm := toRemove cfg s.heap infos
  { s with infos := infos.filter fun i => !rm.contains i.1, pending := some ⟨step, ref, rm⟩ }

def exec (cfg : Cfg) (s : State) : Act → State
  | .assign r x => { s with heap := fun q => if q = r then x else s.heap q }
  | .save step ref => save cfg s step ref
  | .commit => commit s

def run (cfg : Cfg) (s : State) (acts : List Act) : State := acts.foldl (exec cfg) s

/-- The list of a manager that is created now, checkpoint_manager.py:1806-1855. -/
def reloaded (s : State) : List (Int × Int) := s.disk

/-- The list of the manager, with the values its objects have now. -/
def listed (s : State) : List (Int × Int) := s.infos.map fun i => (i.1, s.heap i.2)

end Verif.Manager.Metrics
