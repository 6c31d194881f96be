import Verif.Assoc
import Verif.NameFormat.Model

/-!
# Model of the checkpoint store on disk

Models `_src/path/{atomicity,temporary_paths,deleter}.py`, `find_step_path` of `_src/path/step.py` and
the storage effects of `Checkpointer.save` (`_src/checkpointers/checkpointer.py`), all under
`/repo/checkpoint/orbax/checkpoint`.

The checkpoint root directory is a finite map from entry names to nodes.  The files below a checkpoint
directory are a finite map from relative paths to contents (intermediate directories are not
represented).  A program is a list of atomic storage actions, and a crash (or an exception) at any
point leaves the effect of a prefix of this list.  Writing a file is two actions: first its contents
are torn, then complete.  Not modelled: snapshots (`Snapshot`, btrfs and the like), deferred paths,
permissions, durability of individual system calls (an executed action is durable).
-/

namespace Verif.Store

open Verif.NameFormat (Name tmpSuffix)
open Verif.Assoc

/-- Contents of a file: partially written, or complete (the number stands for the bytes). -/
inductive Content | torn | data (d : Nat)
deriving DecidableEq, Repr

/-- The files below a directory, by relative path. -/
abbrev Files := List (Name × Content)

/-- An entry of the root directory: a plain file, a directory, or a symbolic link to a directory. -/
inductive Node | file | dir (fs : Files) | link (fs : Files)
deriving DecidableEq, Repr

/-- The root directory. -/
abbrev FS := List (Name × Node)

/-- A file operation inside a checkpoint directory. -/
inductive FileOp | tear (f : Name) | write (f : Name) (d : Nat) | unlink (f : Name)
deriving DecidableEq, Repr

/-- The file a file operation is about. -/
def FileOp.target : FileOp → Name
  | .tear f => f
  | .write f _ => f
  | .unlink f => f

/-- Effect of a file operation. -/
def applyOp (fs : Files) : FileOp → Files
  | .tear f => put fs f .torn
  | .write f d => put fs f (.data d)
  | .unlink f => del fs f

/-- Effect of a sequence of file operations. -/
def applyOps (fs : Files) (ops : List FileOp) : Files := ops.foldl applyOp fs

/-- Atomic storage actions. -/
inductive Act
  | mkdir (n : Name)
  | op (n : Name) (o : FileOp)
  | rmdir (n : Name)
  | rename (a b : Name)
deriving DecidableEq, Repr

/-- Execution of one action; `none` is an `OSError`.  `rename` of a directory succeeds if the target
is absent or an empty directory (POSIX). -/
def exec (fs : FS) : Act → Option FS
  | .mkdir n => match get fs n with
    | none => some (put fs n (.dir []))
    | some _ => none
  | .op n o => match get fs n with
    | some (.dir f) => some (put fs n (.dir (applyOp f o)))
    | _ => none
  | .rmdir n => match get fs n with
    | some (.dir []) => some (del fs n)
    | _ => none
  | .rename a b => match get fs a with
    | some (.dir f) => match get fs b with
      | none => some (put (del fs a) b (.dir f))
      | some (.dir []) => some (put (del fs a) b (.dir f))
      | _ => none
    | _ => none

/-- Execution of a program up to its end or its first error; the flag says that it ran to the end. -/
def run (fs : FS) : List Act → FS × Bool
  | [] => (fs, true)
  | a :: as => match exec fs a with
    | some fs' => run fs' as
    | none => (fs, false)

/-! ### Temporary and final paths -/

/-- The two atomicity protocols: `AtomicRenameTemporaryPath` (atomicity.py:445-559) and
`CommitFileTemporaryPath` (562-681). -/
inductive Protocol | atomicRename | commitFile
deriving DecidableEq, Repr

/-- `commit_success.txt`, atomicity_types.py:31. -/
def commitFile : Name := "commit_success.txt".toList

/-- `_CHECKPOINT_METADATA`, the step metadata file. -/
def metadataFile : Name := "_CHECKPOINT_METADATA".toList

/-- `_get_final_directory`, atomicity.py:170-173: the name up to the first occurrence of the temporary
suffix (`none`: no occurrence). -/
def cutTmp : Name → Option Name
  | [] => none
  | c :: s => if tmpSuffix.isPrefixOf (c :: s) then some [] else (cutTmp s).map fun p => c :: p

/-- `TMP_DIR_SUFFIX in name`. -/
def hasTmp (n : Name) : Bool := (cutTmp n).isSome

/-- The temporary path of a final path: `_get_tmp_directory`, atomicity.py:164-167, for atomic rename;
the final path itself for commit files (atomicity.py:623-625). -/
def tmpName (p : Protocol) (n : Name) : Name :=
  match p with
  | .atomicRename => n ++ tmpSuffix
  | .commitFile => n

/-- `from_temporary(path).get_final()`, atomicity.py:463-476 and 594-607. -/
def finalName (p : Protocol) (n : Name) : Option Name :=
  match p with
  | .atomicRename => cutTmp n
  | .commitFile => some n

/-- `is_dir` (follows symbolic links). -/
def isDir : Node → Bool
  | .file => false
  | .dir _ => true
  | .link _ => true

/-- `is_link`. -/
def isLink : Node → Bool
  | .link _ => true
  | _ => false

/-- `(path / COMMIT_SUCCESS_FILE).exists()`. -/
def hasCommitFile : Node → Bool
  | .file => false
  | .dir f => (get f commitFile).isSome
  | .link f => (get f commitFile).isSome

/-- `validate`, atomicity.py:412-428 and 566-580. -/
def validTmp (p : Protocol) (n : Name) (x : Node) : Bool :=
  match p with
  | .atomicRename => !isLink x && hasTmp n && isDir x
  | .commitFile => !isLink x && !hasCommitFile x && isDir x

/-- `validate_final`, atomicity.py:431-442 and 583-592. -/
def validFinal (p : Protocol) (n : Name) (x : Node) : Bool :=
  match p with
  | .atomicRename => !hasTmp n && isDir x
  | .commitFile => hasCommitFile x && isDir x

/-- The protocol a reader assumes, and `allow_legacy_atomic_rename`. -/
structure Opts where
  protocol : Protocol
  legacy : Bool
deriving DecidableEq, Repr

/-- `is_path_temporary`, temporary_paths.py:39-91. -/
def isTemporary (o : Opts) (n : Name) (x : Node) : Bool :=
  if o.legacy && o.protocol != .atomicRename && validFinal .atomicRename n x then false
  else validTmp o.protocol n x

/-- `is_path_finalized`, temporary_paths.py:94-146. -/
def isFinalized (o : Opts) (n : Name) (x : Node) : Bool :=
  validFinal o.protocol n x ||
    (o.legacy && o.protocol != .atomicRename && validFinal .atomicRename n x)

/-- The entries as step discovery sees them (`Verif.NameFormat`). -/
def entries (o : Opts) (fs : FS) : List NameFormat.Entry :=
  fs.map fun p => ⟨p.1, isFinalized o p.1 p.2⟩

/-- `all_temporary_paths`, temporary_paths.py:149-177. -/
def temporaries (o : Opts) (fs : FS) : List Name :=
  (fs.filter fun p => isTemporary o p.1 p.2).map Prod.fst

/-! ### Removal -/

/-- `rmtree`: the files in an order that depends on the file system (`ord`), then the directory.  The
parallel deleter (deleter.py:72-173) unlinks the files concurrently and then calls `rmtree`: this is
also covered by an arbitrary `ord`. -/
def rmtreeActs (ord : List Name → List Name) (fs : FS) (n : Name) : List Act :=
  match get fs n with
  | some (.dir f) => (ord (keys f)).map (fun x => Act.op n (.unlink x)) ++ [.rmdir n]
  | _ => [.rmdir n]

/-- `cleanup_temporary_paths`, temporary_paths.py:180-211, on the primary host.  Simplification: the
concurrent `rmtree`s are run one after the other (crash theorems quantify over interleavings). -/
def cleanupActs (ord : List Name → List Name) (o : Opts) (fs : FS) : List Act :=
  (temporaries o fs).flatMap (rmtreeActs ord fs)

/-! ### Saving -/

/-- A request to save.  `body` is everything that is written below the temporary path between its
creation and `finalize`: the initial step metadata (atomicity.py:149-158), `handler.save` on all hosts
in any interleaving, the custom step metadata and `handler.finalize` (checkpointer.py:251-279). -/
structure SaveReq where
  name : Name
  body : List FileOp
  commitMeta : Nat
  commitText : Nat
  force : Bool
deriving DecidableEq, Repr

/-- Everything written below the temporary path: the body, then the update of the step metadata in
`finalize` (atomicity.py:531-542, 665-676), then the commit file (544-548, 677-681). -/
def saveOps (r : SaveReq) : List FileOp :=
  r.body ++ [.tear metadataFile, .write metadataFile r.commitMeta] ++
    [.tear commitFile, .write commitFile r.commitText]

/-- Does `path.exists()`? -/
def exist (fs : FS) (n : Name) : Bool := (get fs n).isSome

/-- `_create_tmp_directory`, atomicity.py:104-161. -/
def createActs (ord : List Name → List Name) (fs : FS) (t : Name) : List Act :=
  (if exist fs t then rmtreeActs ord fs t else []) ++ [.mkdir t]

/-- `finalize`: atomic rename (atomicity.py:549-552); nothing remains to be done for commit files. -/
def commitActs (p : Protocol) (n : Name) : List Act :=
  match p with
  | .atomicRename => [.rename (tmpName p n) n]
  | .commitFile => []

/-- The part of `Checkpointer.save` after the check of the destination, checkpointer.py:250-285. -/
def writeActs (p : Protocol) (ord : List Name → List Name) (fs : FS) (r : SaveReq) : List Act :=
  createActs ord fs (tmpName p r.name) ++ (saveOps r).map (Act.op (tmpName p r.name)) ++
    commitActs p r.name

/-- `Checkpointer.save`, checkpointer.py:195-302, on the primary host; `none` is the `ValueError` for
an existing destination. -/
def saveActs (p : Protocol) (ord : List Name → List Name) (fs : FS) (r : SaveReq) : Option (List Act) :=
  if exist fs r.name then
    if r.force then
      some (rmtreeActs ord fs r.name ++
        writeActs p ord (run fs (rmtreeActs ord fs r.name)).1 r)
    else none
  else some (writeActs p ord fs r)

/-! ### Deletion -/

/-- Where deleted steps go (deleter.py:276-292): permanent removal, a subdirectory of the root, or
`todelete_full_path` (which is `NotImplementedError` except on Google Cloud Storage). -/
inductive Trash | permanent | subdir | fullPath
deriving DecidableEq, Repr

/-- The root and the `todelete_subdir` below it.  Simplification: kept apart, the subdirectory is not
itself an entry of the root. -/
structure World where
  root : FS
  trash : FS
deriving DecidableEq, Repr

/-- `find_step_path(..., include_uncommitted=True)`, step.py:262-296, for the built name `n`.
`all_temporary_paths` is called without options, so it uses the default protocol `d` of the path. -/
def findTarget (d : Protocol) (o : Opts) (fs : FS) (n : Name) : Option Name :=
  match (temporaries ⟨d, false⟩ fs).find? fun t => finalName d t == some n with
  | some t => some t
  | none => match get fs n with
    | some x => if isFinalized o n x then some n else none
    | none => none

/-- Rename into the trash, deleter.py:353-359 (`replace` fails on a non-empty directory). -/
def moveToTrash (w : World) (t n : Name) : World × Bool :=
  match get w.root t, get w.trash n with
  | some x, none => (⟨del w.root t, put w.trash n x⟩, true)
  | some x, some (.dir []) => (⟨del w.root t, put w.trash n x⟩, true)
  | _, _ => (w, false)

/-- `StandardCheckpointDeleter.delete`, deleter.py:238-301; the flag is false if it raised. -/
def delete (ord : List Name → List Name) (primary : Bool) (tr : Trash) (d : Protocol) (o : Opts)
    (w : World) (n : Name) : World × Bool :=
  if !primary then (w, true)
  else match findTarget d o w.root n with
    | none => (w, true)
    | some t => match tr with
      | .fullPath => (w, false)
      | .subdir => moveToTrash w t n
      | .permanent => (⟨(run w.root (rmtreeActs ord w.root t)).1, w.trash⟩,
          (run w.root (rmtreeActs ord w.root t)).2)

/-! ### Histories -/

/-- What happens to a checkpoint directory: a save (crashing after `crash` storage actions, if given),
a restart of the program with its clean-up (which may crash as well), or a deletion. -/
inductive Op
  | save (r : SaveReq) (crash : Option Nat)
  | restart (crash : Option Nat)
  | delete (n : Name)
deriving DecidableEq, Repr

/-- Execution of a program that may crash: the flag says that it returned normally. -/
def runCrash (fs : FS) (acts : List Act) : Option Nat → FS × Bool
  | none => run fs acts
  | some k => ((run fs (acts.take k)).1, false)

/-- One event. -/
def runOp (p : Protocol) (ord : List Name → List Name) (fs : FS) : Op → FS × Bool
  | .save r c => match saveActs p ord fs r with
    | none => (fs, false)
    | some acts => runCrash fs acts c
  | .restart c => runCrash fs (cleanupActs ord ⟨p, false⟩ fs) c
  | .delete n =>
    ((delete ord true .permanent p ⟨p, false⟩ ⟨fs, []⟩ n).1.root,
      (delete ord true .permanent p ⟨p, false⟩ ⟨fs, []⟩ n).2)

/-- A history of events. -/
def runOps (p : Protocol) (ord : List Name → List Name) (fs : FS) (h : List Op) : FS :=
  h.foldl (fun fs op => (runOp p ord fs op).1) fs

end Verif.Store
