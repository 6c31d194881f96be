/-!
# The barriers of V1 operations: their keys and who takes part

Model of the keys under which the processes of a V1 save, load or finalization
wait for each other, of the counter of operations they contain, and of the
processes each wait is for.
-/

namespace Verif.V1Keys

abbrev Str := List Char

/-- `str(operation_id)` (_src/futures/synchronization.py:63-66). -/
def decimal (n : Nat) : Str := Nat.toDigits 10 n

/-- The key given to the barrier service
(experimental/v1/_src/synchronization/multihost.py:108, `key = f'[op={operation_id}] {key}'`). -/
def opKey (opId key : Str) : Str := "[op=".toList ++ opId ++ "] ".toList ++ key

/-- `unique_barrier_key` (multihost.py:65-76), with a prefix only: the suffix is
never used by these operations. -/
def uniqueKey (key : Str) (pfx : Option Str) : Str :=
  match pfx with
  | none => key
  | some p => p ++ '_' :: key

/-- What the user sets for the processes
(experimental/v1/_src/context/options.py:150-200, `MultiprocessingOptions`), and
how many processes there are. -/
structure Cfg where
  procs : Nat
  active : Option (List Nat)
  pfx : Option Str
  deriving DecidableEq, Repr

/-- The processes taking part. -/
def Cfg.members (c : Cfg) : List Nat :=
  match c.active with
  | none => List.range c.procs
  | some a => a

/-- `should_skip_process_sync` (multihost.py:50-57) in a process that takes part.
Simplified: not Pathways. -/
def Cfg.skips (c : Cfg) : Bool :=
  (match c.active with | some [_] => true | _ => false) || c.procs == 1

/-- One wait for other processes: at a barrier, or in a collective operation of
JAX among processes. -/
inductive Sync
  | barrier (key : Str) (who : List Nat)
  | collective (who : List Nat)
  deriving DecidableEq, Repr

/-- `sync_global_processes` (multihost.py:79-160). -/
def sync (c : Cfg) (opId key : Str) : List Sync :=
  if c.skips then [] else [.barrier (opKey opId key) c.members]

/-- A barrier whose key carries the user's prefix. -/
def keyed (c : Cfg) (opId : Nat) (key : Str) : List Sync :=
  sync c (decimal opId) (uniqueKey key c.pfx)

def kNext : Str := "next_awaitable_signal_operation_id:sync".toList
def kPre : Str := "save_checkpointables_async:maybe_overwrite_existing:pre".toList
def kRm : Str := "save_checkpointables_async:rmtree".toList
def kPost : Str := "save_checkpointables_async:maybe_overwrite_existing:post".toList
def kPartial : Str := "save_checkpointables_async:run_blocking_save:partial_save".toList
def kCreate : Str := "create_directory:post".toList
def kSaved : Str := "save_checkpointables_async:finalize".toList
def kLoad : Str := "_load_impl".toList
def kLoadAsync : Str := "_load_async:finalize".toList
def kFin1 : Str := "OcpPartialSaving:finalize_path_existence_start".toList
def kFin2 : Str := "OcpPartialSaving:finalize_path_rename_start".toList
def kFin3 : Str := "OcpPartialSaving:finalize_rename_complete".toList

/-- The barriers of `PyTreeHandler` for one PyTree
(experimental/v1/_src/handlers/pytree_handler.py:348-392 and 412-418): the
operation id is extended by the name, and there is no prefix. -/
def treeSyncs (c : Cfg) (opId : Nat) (name : Str) : List Sync :=
  let o := decimal opId ++ '.' :: name
  sync c o ("save_and_finalize_".toList ++ o ++ "_commit_complete".toList) ++
    sync c o ("save_and_finalize_".toList ++ o ++ "_finalize_complete".toList)

/-- `_check_directory_consistency` (experimental/v1/_src/saving/execution.py:299-334):
one process sends to all, then all gather. These are collective operations among
all processes of the job (multihost.py:205-218). -/
def directoryCheck (c : Cfg) : List Sync :=
  if c.procs ≤ 1 then [] else
    [.collective (List.range c.procs), .collective (List.range c.procs)]

/-- A V1 operation, as the user calls it.
`save`: the names of the PyTrees saved, whether it is a partial save, and whether
it removes an old checkpoint; `loadAsync late`: `late` is the number of further
operations begun in this process when the load reaches its last barrier. -/
inductive Op
  | save (c : Cfg) (names : List Str) (isPartial removes : Bool)
  | load (c : Cfg)
  | loadAsync (c : Cfg) (late : Nat)
  | finalize (c : Cfg)
  deriving DecidableEq, Repr

/-- Whether an operation takes a new id (`synchronize_next_operation_id`,
experimental/v1/_src/synchronization/synchronization.py:84-101; called at
execution.py:394-399, experimental/v1/_src/loading/loading.py:379-384 and 521-526). -/
def Op.takesId : Op → Bool
  | .finalize _ => false
  | _ => true

/-- All waits of one operation that runs with operation id `i`.
Saving: execution.py:374-436 with experimental/v1/_src/saving/path_utils.py:59-125,
experimental/v1/_src/path/async_utils.py:84-92 and execution.py:220-227, 281-289.
Loading: loading.py:379-407; `load_async` (loading.py:476-488) reads the id when it
reaches its last barrier. Finalizing a partial save:
experimental/v1/_src/partial/saving.py:565-620.
Simplified: waits inside the leaf handlers are left out. -/
def syncs (i : Nat) : Op → List Sync
  | .save c names isPartial removes =>
    keyed c i kNext ++ directoryCheck c ++
      (if isPartial then keyed c i kCreate ++ keyed c i kPartial
       else keyed c i kPre ++ (if removes then keyed c i kRm else []) ++
        keyed c i kPost ++ keyed c i kCreate) ++
      names.flatMap (treeSyncs c i) ++ keyed c i kSaved
  | .load c => keyed c i kNext ++ keyed c i kLoad
  | .loadAsync c late => keyed c i kNext ++ keyed c (i + late) kLoadAsync
  | .finalize c =>
    keyed c i kFin1 ++ keyed c i kFin2 ++
      (if c.procs ≤ 1 then [] else [.collective (List.range c.procs)]) ++ keyed c i kFin3

/-- The waits of a history of operations in one process; `i` is the current
operation id (`OperationIdGenerator`, _src/futures/synchronization.py:51-66). -/
def history (i : Nat) : List Op → List Sync
  | [] => []
  | op :: ops =>
    let j := if op.takesId then i + 1 else i
    syncs j op ++ history j ops

/-- The keys among some waits. -/
def keysOf : List Sync → List Str
  | [] => []
  | .barrier k _ :: rest => k :: keysOf rest
  | .collective _ :: rest => keysOf rest

end Verif.V1Keys
