/-!
# The v1 training checkpointer

Models `training.Checkpointer`, `/repo/checkpoint/orbax/checkpoint/experimental/v1/_src/training/checkpointer.py`,
on top of `CheckpointManager`, `/repo/checkpoint/orbax/checkpoint/checkpoint_manager.py` (cited as `manager`).

Every save of this class creates a new asynchronous checkpointer object and assigns it to the manager's
private field `_checkpointer`, which the manager's finalize thread of an *earlier* save reads. The manager
model of C09 and C10 has one checkpointer for the life of the manager; here the objects are numbered, and a
`save` call is two events, so that the threads can run between them.

Simplifications: one process; the contents of a checkpoint are the number of the checkpointer object that
wrote it; policies do not raise; deleting a directory succeeds; nobody else changes the directory; the user
calls `save` and `load` from one thread, as documented (lines 104-105).
-/
namespace Verif.V1.Training

/-- `CheckpointInfo`, `_src/metadata/checkpoint_info.py` 37-50. `stamp` is its time; `none` is
`datetime.datetime.min`, which a manager constructed with `lightweight_initialize` gives to every existing
checkpoint (manager 1828-1834). -/
structure Info where
  step : Int
  stamp : Option Int
deriving DecidableEq, Repr

/-- The policies. The decision sees the step, the previous checkpoints and whether a save is in progress;
the preservation gives a flag to each checkpoint. -/
structure Cfg where
  savePolicy : Int → List Info → Bool → Bool
  preserve : List Info → List Bool

/-- What a checkpointer object is doing: nothing, writing a step (`gone` if the temporary directory was
removed by `delete`), or finished. -/
inductive Work where
  | idle
  | running (step : Int) (gone : Bool)
  | committed
  | failed
deriving DecidableEq, Repr

/-- The finalize thread, manager 2158-2192: started, waiting for a checkpointer object, or finished. -/
inductive Phase where
  | started
  | waiting (id : Nat)
  | succeeded
  | failed
deriving DecidableEq, Repr

/-- `_FinalizeThread`, manager 120-163. `owner` is a ghost: the checkpointer object that saves the step. `told`
says that its exception has been raised in the user's thread. -/
structure Fin where
  step : Int
  remove : List Int
  owner : Nat
  phase : Phase
  told : Bool
deriving DecidableEq, Repr

structure St where
  /-- `_manager._checkpoints` -/
  infos : List Info
  /-- the committed steps in storage, each with the number of the object that wrote it -/
  disk : List (Int × Nat)
  /-- `_manager._checkpointer` -/
  current : Nat
  /-- the number of the next checkpointer object -/
  next : Nat
  work : Nat → Work
  fin : Option Fin
  /-- `_manager._save_progress_tracker` -/
  inProgress : Bool
  /-- a `save` that waits for the finalize thread, manager 1458 -/
  pending : Option Int

inductive Err where
  | stepAlreadyExists
  | stepNotFound
  | badTimestamp
  | background
  | notCommitted
  | storage
deriving DecidableEq, Repr

/-- The outcome of an event: `skipped` is a save that returns `None` (`False`), `saved` one that returns a
response. -/
inductive Out where
  | saved
  | skipped
  | waiting
  | done
  | blocked
  | raised (e : Err)
deriving DecidableEq, Repr

/-- Removing a step from the cached list, `CheckpointInfos.delete_if`, `checkpoint_info.py` 123-136. -/
def dropInfo (l : List Info) (s : Int) : List Info := l.filter fun i => i.step != s

/-- Removing a step directory. -/
def dropDisk (l : List (Int × Nat)) (s : Int) : List (Int × Nat) := l.filter fun e => e.1 != s

/-- `checkpoints`, lines 228-259: sorted by step; `none` if a time has no time stamp. (`timestamp()` of the
naive `datetime.min` raises `ValueError` in CPython, since the day before is out of range.) -/
def checkpoints (st : St) : Option (List Info) :=
  if st.infos.all fun i => i.stamp.isSome then
    some (st.infos.mergeSort fun a b => decide (a.step ≤ b.step))
  else none

/-- `latest`, lines 215-226. -/
def latest (st : St) : Option (Option Info) := (checkpoints st).map fun l => l.getLast?

/-- `_resolve_existing_checkpoint`, lines 261-275. -/
def resolve (st : St) (step : Option Int) : Except Err Int :=
  match checkpoints st with
  | none => .error .badTimestamp
  | some l =>
    match step with
    | none =>
      match l.getLast? with
      | none => .error .stepNotFound
      | some i => .ok i.step
    | some s =>
      match l.find? fun i => decide (i.step = s) with
      | none => .error .stepNotFound
      | some i => .ok i.step

/-- `load_checkpointables`, lines 778-783: the directory of the resolved step, which must be a committed
checkpoint (C82). -/
def load (st : St) (step : Option Int) : Except Err Nat :=
  match resolve st step with
  | .error e => .error e
  | .ok s =>
    match st.disk.find? fun e => decide (e.1 = s) with
    | none => .error .notCommitted
    | some e => .ok e.2

/-- The step of `CheckpointManager.latest_step`, manager 1173-1182: the last of the cached list. -/
def managerLatest (infos : List Info) : Option Int := infos.getLast?.map fun i => i.step

/-- `CheckpointManager.should_save`, manager 1213-1250. -/
def shouldSave (cfg : Cfg) (st : St) (s : Int) : Bool :=
  match managerLatest st.infos with
  | some l => if l ≥ s then false else cfg.savePolicy s st.infos st.inProgress
  | none => cfg.savePolicy s st.infos st.inProgress

/-- `CheckpointManager.delete`, manager 1274-1303. A temporary directory of the step is removed too
(`_src/path/deleter.py` 217-224), so that a running save of the step fails. -/
def delete (st : St) (s : Int) : St :=
  if st.infos.any fun i => i.step == s then
    { st with
      infos := dropInfo st.infos s
      disk := dropDisk st.disk s
      work := fun i => match st.work i with
        | .running t g => .running t (g || t == s)
        | w => w }
  else st

/-- A new checkpointer object becomes the manager's, lines 582-586; then `CheckpointManager.save` decides, manager
1418-1419, and waits for the finalize thread, 1458. -/
def begin (cfg : Cfg) (st : St) (s : Int) (force : Bool) : St × Out :=
  let st := { st with current := st.next, next := st.next + 1 }
  if force || shouldSave cfg st s then ({ st with pending := some s }, .waiting)
  else (st, .skipped)

/-- `save_checkpointables_async`, lines 567-596, until the wait. -/
def save (cfg : Cfg) (st : St) (s : Int) (force overwrite : Bool) : St × Out :=
  if st.pending.isSome then (st, .blocked)
  else if overwrite then begin cfg (delete st s) s force
  else
    match checkpoints st with
    | none => (st, .raised .badTimestamp)
    | some l =>
      if l.any fun i => i.step == s then (st, .raised .stepAlreadyExists)
      else begin cfg st s force

/-- Is the finalize thread alive? -/
def finAlive (st : St) : Bool :=
  match st.fin with
  | none => false
  | some f => match f.phase with
    | .started => true
    | .waiting _ => true
    | _ => false

/-- The steps to remove, manager 2001-2017. -/
def toRemove (infos : List Info) (flags : List Bool) : List Int :=
  (infos.zip flags).filterMap fun p => if p.2 then none else some p.1.step

/-- Starting to write and the rest of `CheckpointManager.save`, manager 1471-1612, once nothing is waited for. An
existing directory of the step is removed first (`force=True`, manager 1535-1537). -/
def write (cfg : Cfg) (st : St) (s : Int) (now : Int) (storageOk : Bool) : St × Out :=
  let st := { st with pending := none, inProgress := true }
  if st.infos.any fun i => i.step == s then (st, .raised .stepAlreadyExists)
  else
    let st := { st with disk := dropDisk st.disk s }
    if !storageOk then (st, .raised .storage)
    else
      let infos := st.infos ++ [⟨s, some now⟩]
      let rm := toRemove infos (cfg.preserve infos)
      ({ st with
          work := fun i => if i = st.current then .running s false else st.work i
          infos := infos.filter fun i => !rm.contains i.step
          fin := some ⟨s, rm, st.current, .started, false⟩ }, .saved)

/-- `CheckpointManager.save` continues after the wait, manager 1458-1612: an exception of the finalize thread is raised
once (manager 152-163), and its step is removed from the list (2077-2086). -/
def proceed (cfg : Cfg) (st : St) (now : Int) (storageOk : Bool) : St × Out :=
  match st.pending with
  | none => (st, .blocked)
  | some s =>
    match st.fin with
    | none => write cfg st s now storageOk
    | some f =>
      match f.phase with
      | .started => (st, .blocked)
      | .waiting _ => (st, .blocked)
      | .succeeded => write cfg st s now storageOk
      | .failed =>
        if f.told then write cfg st s now storageOk
        else ({ st with pending := none, fin := some { f with told := true },
                        infos := dropInfo st.infos f.step }, .raised .background)

/-- The commit thread of an object finishes, `_src/checkpointers/async_checkpointer.py` 231-265. -/
def commitDone (st : St) (id : Nat) (ok : Bool) : St × Out :=
  match st.work id with
  | .running s gone =>
    if ok && !gone then
      ({ st with disk := st.disk ++ [(s, id)],
                 work := fun i => if i = id then .committed else st.work i }, .done)
    else ({ st with work := fun i => if i = id then .failed else st.work i }, .done)
  | _ => (st, .blocked)

/-- A step of the finalize thread, manager 2158-2192: it reads the manager's `_checkpointer` (2020-2021), waits
for this object, and then deletes the old steps. -/
def finStep (st : St) : St × Out :=
  match st.fin with
  | none => (st, .blocked)
  | some f =>
    match f.phase with
    | .started => ({ st with fin := some { f with phase := .waiting st.current } }, .done)
    | .waiting id =>
      match st.work id with
      | .running _ _ => (st, .blocked)
      | .failed =>
        ({ st with fin := some { f with phase := .failed }, inProgress := false,
                   work := fun i => if i = id then .idle else st.work i }, .done)
      | _ =>
        ({ st with fin := some { f with phase := .succeeded }, inProgress := false,
                   disk := st.disk.filter fun e => !f.remove.contains e.1 }, .done)
    | _ => (st, .blocked)

/-- `result()` of a response, lines 52-69, in its own thread: `wait_until_finished`, manager 2023-2097. -/
def result (st : St) : St × Out :=
  match st.fin with
  | none => (st, .done)
  | some f =>
    match f.phase with
    | .succeeded => (st, .done)
    | .failed => ({ st with infos := dropInfo st.infos f.step }, .raised .background)
    | _ => (st, .blocked)

/-- The events: the user's calls and the background threads. -/
inductive Ev where
  | save (step : Int) (force overwrite : Bool)
  | proceed (now : Int) (storageOk : Bool)
  | commitDone (id : Nat) (ok : Bool)
  | finStep
  | result
deriving DecidableEq, Repr

def exec (cfg : Cfg) (st : St) : Ev → St × Out
  | .save s f o => save cfg st s f o
  | .proceed now ok => proceed cfg st now ok
  | .commitDone id ok => commitDone st id ok
  | .finStep => finStep st
  | .result => result st

def run (cfg : Cfg) (st : St) (evs : List Ev) : St := evs.foldl (fun s e => (exec cfg s e).1) st

/-- A new checkpointer over a directory, lines 172-208. Existing checkpoints are numbered by the caller below
`next`; the manager's own checkpointer object, which is never used to save, is `next`. -/
def init (disk : List (Int × Nat)) (stamps : Int → Option Int) (next : Nat) : St :=
  { infos := (disk.map fun e => ⟨e.1, stamps e.1⟩).mergeSort fun a b => decide (a.step ≤ b.step)
    disk := disk, current := next, next := next + 1, work := fun _ => .idle, fin := none,
    inProgress := false, pending := none }

end Verif.V1.Training
