/-!
# Saving one checkpoint from several processes (V1)

Model of the part of a V1 save that several processes carry out together on
shared storage: looking at the destination, removing what is there when
overwriting, creating the temporary directory, writing, merging and committing,
with the barriers between them.

Every process runs the same program; a schedule says which process moves next.
A process may also stop at any point: this stands for a crash, for an error it
meets and for a barrier that times out in it.
-/

namespace Verif.V1Save

/-- The barriers of one save, by key.
`pre`, `post`: experimental/v1/_src/saving/path_utils.py:105-112 and 118-125;
`rmtree`: path_utils.py:76-84; `create`: experimental/v1/_src/path/async_utils.py:84-92;
`commitComplete`, `finalizeComplete`: experimental/v1/_src/handlers/pytree_handler.py:350-369
and 374-392; `finalize`: experimental/v1/_src/saving/execution.py:220-227.
Simplified: the operation id and the user's prefix, which are part of the key,
are the same in every process and are left out. -/
inductive Key
  | pre | rmtree | post | create | commitComplete | finalizeComplete | finalize
  deriving DecidableEq, Repr

/-- Where a process is in the save
(path_utils.py:59-125, execution.py:160-233 and 242-296, pytree_handler.py:331-392).
`refused`: it has raised "Destination already exists" (path_utils.py:117). -/
inductive Pc
  | start | wait (k : Key) | check | remove | removing | refused
  | create | write | merge | commit | done
  deriving DecidableEq, Repr

/-- A checkpoint directory: the processes whose data is completely in it, and
whether the per-process data has been merged (pytree_handler.py:322-329). -/
structure Dir where
  data : List Nat
  merged : Bool
  deriving DecidableEq, Repr

/-- What is at the destination: nothing, the checkpoint that was there before
the save, what is left of it while it is being removed, or the new checkpoint. -/
inductive Final
  | absent | old | damaged | committed (d : Dir)
  deriving DecidableEq, Repr

/-- One save: processes `0 … n-1` take part (`active_processes`, renumbered),
`primary` is `primary_host`, `overwrite` the argument of the save, and `syncs`
says whether the handler waits for the other processes before it returns, as
`PyTreeHandler` does (pytree_handler.py:348-392) and a `StatefulCheckpointable`
(experimental/v1/_src/handlers/stateful_checkpointable_handler.py:29-36) or a
handler of the user's does not.
Simplified: one checkpointable; storage shared by all processes. -/
structure Cfg where
  n : Nat
  primary : Nat
  overwrite : Bool
  syncs : Bool

/-- The state of all processes, of the barrier service and of the storage. -/
structure State where
  pc : Nat → Pc
  dead : Nat → Bool
  arrived : Key → Nat → Bool
  final : Final
  tmp : Option Dir

/-- Writes one entry of a table. -/
def upd {α : Type} (f : Nat → α) (p : Nat) (v : α) : Nat → α :=
  fun q => if q = p then v else f q

/-- The process moves to `pc`. -/
def goto (s : State) (p : Nat) (pc : Pc) : State :=
  { s with pc := upd s.pc p pc }

/-- The process arrives at a barrier and waits
(experimental/v1/_src/synchronization/multihost.py:79-160, `wait_at_barrier`). -/
def arrive (s : State) (p : Nat) (k : Key) : State :=
  { s with
    pc := upd s.pc p (.wait k)
    arrived := fun k' q => if k' = k ∧ q = p then true else s.arrived k' q }

/-- A barrier lets processes through once every participant has arrived at that
key. With one participant the wait is skipped (multihost.py:50-57), which is the
same thing. -/
def isOpen (c : Cfg) (s : State) (k : Key) : Bool :=
  (List.range c.n).all (fun q => s.arrived k q)

/-- `async_path.exists(path)` (path_utils.py:113): a directory that is being
removed is still there until its last part is gone. -/
def Final.present : Final → Bool
  | .absent => false
  | _ => true

/-- `maybe_overwrite_existing` after the first barrier (path_utils.py:113-117)
and the entry into `remove_existing_path` (path_utils.py:59-75). -/
def lookAt (c : Cfg) (p : Nat) (s : State) : State :=
  if s.final.present then
    if c.overwrite then
      if p = c.primary then goto s p .remove else arrive s p .rmtree
    else goto s p .refused
  else arrive s p .post

/-- `_create_paths` (async_utils.py:38-92): the primary creates the temporary
directory, then everyone waits. Simplified: sub-directories and signals. -/
def createStep (c : Cfg) (p : Nat) (s : State) : State :=
  if p = c.primary then
    arrive { s with tmp := some ⟨[], false⟩ } p .create
  else arrive s p .create

/-- The process finishes writing its own data into the temporary directory
(pytree_handler.py:338-346). Without that directory the write fails. Then, with
`PyTreeHandler`, it waits for the others (pytree_handler.py:348-369). -/
def writeStep (c : Cfg) (p : Nat) (s : State) : State :=
  match s.tmp with
  | none => { s with dead := upd s.dead p true }
  | some d =>
    let s1 : State := { s with tmp := some { d with data := p :: d.data } }
    if c.syncs then arrive s1 p .commitComplete else goto s1 p .commit

/-- `PyTreeHandler._finalize` (pytree_handler.py:322-329) on the primary, then
the second barrier (pytree_handler.py:372-392). -/
def mergeStep (c : Cfg) (p : Nat) (s : State) : State :=
  if p = c.primary then
    arrive { s with tmp := s.tmp.map (fun d => { d with merged := true }) } p
      .finalizeComplete
  else arrive s p .finalizeComplete

/-- The end of `_finalize_save` (execution.py:183-227): the primary writes the
metadata and renames the temporary directory to the destination; everyone waits
at the last barrier. Simplified: atomic rename only. -/
def commitStep (c : Cfg) (p : Nat) (s : State) : State :=
  if p = c.primary then
    match s.tmp with
    | none => { s with dead := upd s.dead p true }
    | some d => arrive { s with final := .committed d, tmp := none } p .finalize
  else arrive s p .finalize

/-- What a process does once its barrier is open. -/
def afterBarrier (s : State) (p : Nat) : Key → State
  | .pre => goto s p .check
  | .rmtree => arrive s p .post
  | .post => goto s p .create
  | .create => goto s p .write
  | .commitComplete => goto s p .merge
  | .finalizeComplete => goto s p .commit
  | .finalize => goto s p .done

/-- One move of process `p`; `none` when it cannot move. The removal of the old
checkpoint is two moves (path_utils.py:75, `rmtree`): its contents go first. -/
def step (c : Cfg) (p : Nat) (s : State) : Option State :=
  if p < c.n ∧ s.dead p = false then
    match s.pc p with
    | .start => some (arrive s p .pre)
    | .wait k => if isOpen c s k then some (afterBarrier s p k) else none
    | .check => some (lookAt c p s)
    | .remove => some (goto { s with final := .damaged } p .removing)
    | .removing => some (arrive { s with final := .absent } p .rmtree)
    | .refused => none
    | .create => some (createStep c p s)
    | .write => some (writeStep c p s)
    | .merge => some (mergeStep c p s)
    | .commit => some (commitStep c p s)
    | .done => none
  else none

/-- What a schedule consists of: a process moves, or stops for good. -/
inductive Act
  | run (p : Nat)
  | stop (p : Nat)
  deriving DecidableEq, Repr

/-- One entry of a schedule; a process that cannot move does nothing. -/
def act (c : Cfg) (s : State) : Act → State
  | .run p => (step c p s).getD s
  | .stop p => { s with dead := upd s.dead p true }

/-- A whole schedule. -/
def exec (c : Cfg) (s : State) : List Act → State
  | [] => s
  | a :: as => exec c (act c s a) as

/-- Before the save: `existed` says whether a checkpoint is at the destination. -/
def initial (existed : Bool) : State where
  pc := fun _ => .start
  dead := fun _ => false
  arrived := fun _ _ => false
  final := if existed then .old else .absent
  tmp := none

/-- `_check_directory_consistency` (execution.py:299-334): the hash of process
0's path is sent to all, everyone compares, the results are gathered, and a
process raises if any comparison failed. `paths` has one path per process;
the result says for each process whether it raises. -/
def checkDirectories {α β : Type} [DecidableEq β] (hash : α → β) (paths : List α) :
    List Bool :=
  match paths with
  | [] => []
  | [_] => [false]
  | p0 :: rest =>
    let mismatches := (p0 :: rest).map (fun q => if hash q = hash p0 then 0 else 1)
    (p0 :: rest).map (fun _ => decide (mismatches.sum > 0))

end Verif.V1Save
