import Verif.Policies.Model
import Verif.SavePolicy.Model

/-!
# Model of `CheckpointManager` as a state machine

Models the step bookkeeping of `/repo/checkpoint/orbax/checkpoint/checkpoint_manager.py`, the cached
list `_src/metadata/checkpoint_info.py`, the background thread `_FinalizeThread`, and what they use of
`_src/checkpointers/{checkpointer,async_checkpointer}.py` and `_src/path/deleter.py`.

Granularity.  Every public call is one event, except that in an asynchronous manager the two
background activities (the async checkpointer's commit thread, and the manager's finalize thread) are
separate events that may be scheduled at any time.  A call that would block (waiting for the finalize
thread) is an event that leaves the state unchanged with outcome `blocked`; it can be retried later.
`should_save` runs before that wait: what it saw then is over-approximated by the flag `overlap`
("the in-progress flag was read while the previous save was still running").

Simplifications: one process (no barriers); the contents of a checkpoint are abstracted to
(step, commit time, metric), enough for the bookkeeping; storage is the list of *committed* step
directories (temporary ones are invisible to `find_all`, see `Verif.Storage`); user policies are
arbitrary functions that may raise; a single user thread calls `save/delete/reload`, any number of
threads call `wait_until_finished`.  Deletion is the non-threaded deleter.
-/

namespace Verif.Manager

open Verif.Policies (Ckpt)
open Verif.SavePolicy (Ctx)

/-- Exceptions a manager call can raise. -/
inductive Err
  | stepAlreadyExists   -- checkpoint_manager.py:1474-1477
  | stepNotFound        -- checkpoint_manager.py:1288-1291
  | policy              -- raised by a user policy
  | storage             -- raised by `Checkpointer.save`
  | deletion            -- raised by the deleter
  | background          -- re-raised failure of a background save
deriving DecidableEq, Repr

/-- Outcome of an event. `saved`/`skipped` are `save` returning `True`/`False`. -/
inductive Out
  | saved | skipped | done | blocked
  | raised (e : Err)
deriving DecidableEq, Repr

/-- Configuration, from `CheckpointManagerOptions` (checkpoint_manager.py:242-515). -/
structure Cfg where
  readOnly : Bool
  /-- `is_async_checkpointer(self._checkpointer)`, checkpoint_manager.py:243-249 -/
  isAsync : Bool
  /-- `options.enable_should_save_is_saving_in_progress_check` -/
  checkInProgress : Bool
  /-- `options.best_fn is not None` -/
  trackBest : Bool
  /-- `options.best_mode == 'min'` -/
  bestModeMin : Bool
  /-- `options.prevent_write_metrics` -/
  preventWriteMetrics : Bool
  /-- `self._save_decision_policy.should_save` -/
  savePolicy : Ckpt → List Ckpt → Ctx → Except Unit Bool
  /-- `self._preservation_policy.should_preserve` -/
  preserve : List Ckpt → Except Unit (List Bool)

/-- Status of a `_FinalizeThread`, checkpoint_manager.py:120-163. -/
inductive FinStatus | running | succeeded | failed
deriving DecidableEq, Repr

/-- `_FinalizeThread`: its step, the steps it will delete, whether it has finished, and the threads
whose `_thread_local.should_raise` is already `False`.  `serial` is a ghost: the number of the save
that started it. -/
structure Fin where
  step : Int
  toRemove : List Int
  status : FinStatus
  raisedTo : List Nat
  serial : Nat
deriving DecidableEq, Repr

/-- A running commit of the async checkpointer (`_AsyncManager._thread`): the checkpoint it will
publish, and whether its temporary directory was removed under it by `delete`. -/
structure Commit where
  info : Ckpt
  tmpGone : Bool
  serial : Nat
deriving DecidableEq, Repr

structure St where
  /-- `self._checkpoints` -/
  infos : List Ckpt
  /-- committed step directories in storage -/
  disk : List Ckpt
  /-- `self._save_progress_tracker` -/
  inProgress : Bool
  commit : Option Commit
  /-- `_AsyncManager._exception is not None` -/
  asyncErr : Bool
  /-- `self._finalize_thread` -/
  fin : Option Fin
  /-- ghost: number of saves started -/
  serial : Nat
  /-- ghost: serial numbers of saves whose commit succeeded -/
  committed : List Nat
deriving DecidableEq, Repr

/-- Steps of a list of infos. -/
def steps (l : List Ckpt) : List Int := l.map (·.step)

/-- `CheckpointInfos.delete_if(lambda info: info.step == step)`, checkpoint_info.py:118-133. -/
def deleteStep (l : List Ckpt) (step : Int) : List Ckpt := l.filter fun c => !(c.step == step)

/-- `delete_if(lambda info: info.step in steps_to_remove)`. -/
def deleteSteps (l : List Ckpt) (rm : List Int) : List Ckpt := l.filter fun c => !rm.contains c.step

/-- `_load_checkpoint_infos`, checkpoint_manager.py:1808-1855: every committed step, sorted by
step. -/
def loadInfos (disk : List Ckpt) : List Ckpt := disk.mergeSort fun a b => decide (a.step ≤ b.step)

/-- `latest_step`, checkpoint_manager.py:1173-1182 and `CheckpointInfos.latest`,
checkpoint_info.py:105-108. -/
def latestStep (infos : List Ckpt) : Option Int := infos.getLast?.map (·.step)

/-- A freshly constructed manager over existing storage (checkpoint_manager.py:881-885,
with `lightweight_initialize=False`). -/
def init (disk : List Ckpt) : St :=
  { infos := loadInfos disk, disk := disk, inProgress := false, commit := none, asyncErr := false,
    fin := none, serial := 0, committed := [] }

/-- Arguments and environment of one `save` call. -/
structure SaveCall where
  thread : Nat
  step : Int
  metric : Option Int
  force : Bool
  /-- clock when the call is made -/
  now : Int
  preempted : Bool
  overlap : Bool
  /-- does `Checkpointer.save` return normally -/
  storageOk : Bool
  /-- commit time stamp (synchronous managers) -/
  commitTime : Int
  /-- `some k`: the deletion number `k` (from 0) of this save's garbage collection raises
  (synchronous managers) -/
  deleteFailsAt : Option Nat
deriving DecidableEq, Repr

/-- `should_save`, checkpoint_manager.py:1213-1250. -/
def shouldSave (cfg : Cfg) (st : St) (c : SaveCall) : Except Unit Bool :=
  if cfg.readOnly then .ok false
  else
    let tooOld := match latestStep st.infos with
      | some l => decide (l ≥ c.step)
      | none => false
    if tooOld then .ok false
    else
      cfg.savePolicy ⟨c.step, c.now, none⟩ st.infos
        ⟨cfg.checkInProgress && (st.inProgress || c.overlap), c.preempted⟩

/-- `_get_old_steps_to_remove`, checkpoint_manager.py:2001-2017: `zip` stops at the shorter list. -/
def oldStepsToRemove (infos : List Ckpt) (flags : List Bool) : List Int :=
  (infos.zip flags).filterMap fun p => if p.2 then none else some p.1.step

/-- `delete_steps`, deleter.py:359-362 with `StandardCheckpointDeleter.delete`, 196-250, as an effect
on the committed directories; `failsAt` as in `SaveCall.deleteFailsAt`.  Deleting a step that is not
there only logs a warning (deleter.py:225-231).  Returns the disk and whether it raised. -/
def gcDisk (disk : List Ckpt) (rm : List Int) (failsAt : Option Nat) : List Ckpt × Bool :=
  match rm, failsAt with
  | [], _ => (disk, false)
  | _ :: _, some 0 => (disk, true)
  | r :: rs, some (k+1) => gcDisk (deleteStep disk r) rs (some k)
  | r :: rs, none => gcDisk (deleteStep disk r) rs none

/-- What is written for the metrics: the metrics item is saved only when the best checkpoint is
tracked and `prevent_write_metrics` is unset, checkpoint_manager.py:1520-1523; a later `reload` reads
it back (1899-1915). -/
def diskMetric (cfg : Cfg) (m : Option Int) : Option Int :=
  if cfg.trackBest && !cfg.preventWriteMetrics then m else none

/-- `wait_until_finished`, checkpoint_manager.py:2023-2097, by thread `t`, when the finalize thread is
not running: `none`/succeeded returns; failed raises once per thread (`_FinalizeThread.join`,
152-163) and drops the failed step from the cache.  The flag says whether it raises. -/
def waitFinished (st : St) (t : Nat) : St × Bool :=
  match st.fin with
  | none => (st, false)
  | some f =>
    match f.status with
    | .failed =>
      if f.raisedTo.contains t then (st, false)
      else ({ st with fin := some { f with raisedTo := t :: f.raisedTo },
                      infos := deleteStep st.infos f.step }, true)
    | _ => (st, false)

/-- `_finalize_thread` is alive. -/
def finRunning (st : St) : Bool :=
  match st.fin with
  | some f => f.status == .running
  | none => false

/-- Is the finalize thread (or a commit thread the checkpointer must join first,
async_checkpointer.py:607) running? -/
def busy (st : St) : Bool :=
  finRunning st || st.commit.isSome

/-- The part of `save` after `Checkpointer.save` returned, checkpoint_manager.py:1542-1612. -/
def afterStore (cfg : Cfg) (st : St) (c : SaveCall) : St × Out :=
  let infos := st.infos ++ [⟨c.step, c.now, c.metric⟩]
  match cfg.preserve infos with
  | .error _ => ({ st with infos := infos }, .raised .policy)
  | .ok flags =>
    let rm := oldStepsToRemove infos flags
    let st := { st with infos := deleteSteps infos rm }
    if cfg.isAsync then
      ({ st with fin := some ⟨c.step, rm, .running, [], st.serial⟩ }, .saved)
    else
      let r := gcDisk st.disk rm c.deleteFailsAt
      ({ st with disk := r.1, inProgress := false }, if r.2 then .raised .deletion else .saved)

/-- The part of `save` from the save-in-progress flag on, checkpoint_manager.py:1471-1612. -/
def doSave (cfg : Cfg) (st : St) (c : SaveCall) : St × Out :=
  let st := { st with inProgress := true }
  if (steps st.infos).contains c.step then (st, .raised .stepAlreadyExists)
  else if st.asyncErr then
    -- AsyncCheckpointer.save first waits and surfaces a pending error, async_checkpointer.py:607
    ({ st with asyncErr := false }, .raised .background)
  else
    -- `force=True`: an existing directory is removed first (checkpointer.py:231-241,
    -- async_checkpointer.py:518-529)
    let disk := deleteStep st.disk c.step
    let info : Ckpt := ⟨c.step, c.commitTime, diskMetric cfg c.metric⟩
    if !c.storageOk then ({ st with disk := disk }, .raised .storage)
    else if cfg.isAsync then
      afterStore cfg { st with disk := disk, commit := some ⟨info, false, st.serial + 1⟩,
                               serial := st.serial + 1 } c
    else
      afterStore cfg { st with disk := disk ++ [info], serial := st.serial + 1,
                               committed := (st.serial + 1) :: st.committed } c

/-- `save`, checkpoint_manager.py:1334-1612. -/
def save (cfg : Cfg) (st : St) (c : SaveCall) : St × Out :=
  match (if c.force then .ok true else shouldSave cfg st c) with
  | .error _ => (st, .raised .policy)
  | .ok false => (st, .skipped)
  | .ok true =>
    if busy st then (st, .blocked)
    else
      let r := waitFinished st c.thread
      if r.2 then (r.1, .raised .background) else doSave cfg r.1 c

/-- `delete`, checkpoint_manager.py:1274-1303; `ok = false` when the deleter raises.  Deleting the
step being saved removes its temporary directory (`include_uncommitted=True`, deleter.py:217-224). -/
def delete (cfg : Cfg) (st : St) (step : Int) (ok : Bool) : St × Out :=
  if cfg.readOnly then (st, .done)
  else if !(steps st.infos).contains step then (st, .raised .stepNotFound)
  else if !ok then (st, .raised .deletion)
  else
    ({ st with
        disk := deleteStep st.disk step
        commit := st.commit.map fun k =>
          if k.info.step == step then { k with tmpGone := true } else k
        infos := deleteStep st.infos step }, .done)

/-- The commit thread finishes, `_AsyncManager._thread_func`, async_checkpointer.py:231-265: on
success the step directory is published, otherwise the exception is stored. -/
def commitDone (st : St) (ok : Bool) (time : Int) : St × Out :=
  match st.commit with
  | none => (st, .blocked)
  | some k =>
    if ok && !k.tmpGone then
      ({ st with commit := none, disk := st.disk ++ [{ k.info with time := time }],
                 committed := k.serial :: st.committed }, .done)
    else ({ st with commit := none, asyncErr := true }, .done)

/-- The finalize thread runs `_finalize`, checkpoint_manager.py:2158-2192, once the commit thread is
finished (`_wait_for_checkpointers` joins it, async_checkpointer.py:300-331). -/
def finalize (st : St) (deleteFailsAt : Option Nat) : St × Out :=
  match st.fin with
  | none => (st, .blocked)
  | some f =>
    if f.status != .running || st.commit.isSome then (st, .blocked)
    else if st.asyncErr then
      ({ st with asyncErr := false, inProgress := false, fin := some { f with status := .failed } },
        .done)
    else
      let r := gcDisk st.disk f.toRemove deleteFailsAt
      ({ st with disk := r.1, inProgress := false,
                 fin := some { f with status := if r.2 then .failed else .succeeded } }, .done)

/-- Events: user calls, and the two background activities. -/
inductive Ev
  | save (c : SaveCall)
  | delete (step : Int) (ok : Bool)
  | reload
  | wait (thread : Nat)
  /-- `check_for_errors()` (checkpoint_manager.py:2113-2119), or the wait inside `restore()`
  (async_checkpointer.py:643-646): surfaces and clears the stored exception. -/
  | pollError
  | commitDone (ok : Bool) (time : Int)
  | finalize (deleteFailsAt : Option Nat)
deriving DecidableEq, Repr

/-- One event. -/
def exec (cfg : Cfg) (st : St) : Ev → St × Out
  | .save c => save cfg st c
  | .delete s ok => delete cfg st s ok
  | .reload => ({ st with infos := loadInfos st.disk }, .done)
  | .wait t =>
    if finRunning st then (st, .blocked)
    else
      let r := waitFinished st t
      (r.1, if r.2 then .raised .background else .done)
  | .pollError =>
    if st.asyncErr then ({ st with asyncErr := false }, .raised .background) else (st, .done)
  | .commitDone ok t => commitDone st ok t
  | .finalize d => finalize st d

/-- A history. -/
def run (cfg : Cfg) (st : St) (evs : List Ev) : St := evs.foldl (fun s e => (exec cfg s e).1) st

/-- Sort key comparison of `_sort_checkpoints_by_metrics`: `key=best_fn(info.metrics)`,
`reverse=(best_mode == 'min')`; Python's sort is stable also when reversed. -/
def keyLe (minMode : Bool) (a b : Int × Ckpt) : Bool :=
  if minMode then decide (b.1 ≤ a.1) else decide (a.1 ≤ b.1)

/-- `_sort_checkpoints_by_metrics`, checkpoint_manager.py:1978-1999 (second component), each info
paired with the value of `best_fn`. -/
def sortByMetric (cfg : Cfg) (infos : List Ckpt) : List (Int × Ckpt) :=
  (infos.filterMap fun c => c.metric.map fun m => (m, c)).mergeSort (keyLe cfg.bestModeMin)

/-- `best_step`, checkpoint_manager.py:1184-1199. -/
def bestStep (cfg : Cfg) (infos : List Ckpt) : Option Int :=
  if !cfg.trackBest then latestStep infos
  else if infos.isEmpty then none
  else (sortByMetric cfg infos).getLast?.map (·.2.step)

/-- The options read by `_get_default_preservation_policy`. -/
structure KeepOptions where
  keepPeriod : Option Int
  keepTimeInterval : Option Int
  bestFn : Bool
  bestModeMin : Bool
  maxToKeep : Option Int
  keepWithoutMetrics : Bool
deriving DecidableEq, Repr

/-- `_get_default_preservation_policy`, checkpoint_manager.py:212-239. -/
def defaultPreserve (o : KeepOptions) (cs : List Ckpt) : Except Unit (List Bool) :=
  let period : Except Unit (List (List Bool)) := match o.keepPeriod with
    | none => .ok []
    | some p => match Verif.Policies.everyNSteps p true none cs with
      | .ok r => .ok [r]
      | .error _ => .error ()
  match period with
  | .error e => .error e
  | .ok r1 =>
    let r2 := match o.keepTimeInterval with
      | none => []
      | some t => [Verif.Policies.everyNSeconds t cs]
    let r3 := if o.bestFn then
        [Verif.Policies.bestN o.bestModeMin o.maxToKeep o.keepWithoutMetrics cs]
      else [Verif.Policies.latestN o.maxToKeep cs]
    match Verif.Policies.anyPolicy (r1 ++ r2 ++ r3) with
    | some flags => .ok flags
    | none => .error ()

end Verif.Manager
