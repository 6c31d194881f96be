import Verif.Assoc

/-!
# Model of partial saving

Models `/repo/checkpoint/orbax/checkpoint/experimental/v1/_src/partial/saving.py`, with the parts of
`_src/handlers/base_pytree_checkpoint_handler.py`, `_src/path/snapshot/snapshot.py` and
`_src/path/atomicity.py` it uses.

For a checkpoint path `p` three directories matter: the temporary directory of the partial save that is
being written (`p.partial_save.orbax-checkpoint-tmp`), the session (`p.partial_save`), which collects the
finished partial saves as *pending* directories and into which `finalize` merges them, and the final
checkpoint `p`.

Simplifications: one checkpointable (`partial.save` has only `state`); a leaf is written by one process
and is one entry of that process's database (in the code: one per chunk); the key path of a leaf is a
list of numbers standing for its components; metadata entries, leaves, array metadata and custom metadata
values are numbers; the `_sharding` file (treated exactly as `_METADATA`), the indicator files and
`commit_success.txt` are left out; array metadata validation (C60) is taken to succeed; one host.
`rename` onto something that exists raises `FileExistsError`, as the code expects (epath).
The merges that `asyncio.gather` starts together are done in one order; they work on different files.
-/

namespace Verif.Partial

open Verif.Assoc

/-- The path of a leaf in the saved tree (`tree_utils.tuple_path_from_keypath`). -/
abbrev Key := List Nat

/-- `_METADATA`: the entries of the leaves, and `use_zarr3`. -/
structure Info where
  entries : List (Key × Nat)
  zarr3 : Bool
deriving DecidableEq, Repr

/-- The name of a database directory: `ocdbt.process_<k>`, or `ocdbt.process_<k><uuid>` once merged. -/
abbrev ProcName := Nat × Option Nat

/-- A pytree directory: `_METADATA`, the databases of the processes, `array_metadatas/process_<k>`, and
the merged database. -/
structure TreeDir where
  info : Option Info
  procs : List (ProcName × List (Key × Nat))
  arrays : List (Nat × List Nat)
  db : Option (List (Key × Nat))
deriving DecidableEq, Repr

/-- A checkpoint directory: the custom metadata in `_CHECKPOINT_METADATA`, and the pytree directory. -/
structure Dir where
  ckpt : Option (List (Nat × Nat))
  tree : Option TreeDir
deriving DecidableEq, Repr

/-- The directory `p.partial_save`: what has been merged, and the pending directories
`<name>.pending_<time>_<uuid>` (snapshot.py:32-35); the number stands for time and uuid. -/
structure Session where
  base : Dir
  pend : List (Nat × Dir)
deriving DecidableEq, Repr

/-- Everything on disk that belongs to a path. -/
structure World where
  tmp : Option Dir
  sess : Option Session
  final : Option Dir
deriving DecidableEq, Repr

inductive Err | fileExists | notFound | replacement
deriving DecidableEq, Repr

/-! ### Saving -/

/-- A partial save: the leaves each process writes, the metadata entries, the array metadata, custom
metadata, `use_zarr3`, and the time and uuid its pending directory gets. -/
structure Req where
  procs : List (Nat × List (Key × Nat))
  entries : List (Key × Nat)
  arrays : List (Nat × List Nat)
  custom : Option (List (Nat × Nat))
  zarr3 : Bool
  id : Nat
deriving DecidableEq, Repr

/-- `_is_prefix`, base_pytree_checkpoint_handler.py:241-243 and saving.py:262-263. -/
def isPrefix (a b : Key) : Bool := decide (a.length < b.length) && (b.take a.length == a)

/-- `_validate_key`, base_pytree_checkpoint_handler.py:322-334: the key conflicts with a saved one. -/
def conflicts (saved : List Key) (k : Key) : Bool :=
  saved.contains k || saved.any fun m => isPrefix k m || isPrefix m k

/-- The keys in the metadata of the pending directories, base_pytree_checkpoint_handler.py:289-318
(`list_pending_dirs`; a pending directory without `_METADATA` counts for nothing). -/
def pendingKeys (s : Option Session) : List Key :=
  match s with
  | none => []
  | some s => s.pend.flatMap fun p =>
      match p.2.tree with
      | none => []
      | some t => match t.info with
        | none => []
        | some i => keys i.entries

/-- What a partial save writes: `async_save` with `partial_save_mode` (base_pytree_checkpoint_handler.py:
693-720; `_finalize` merges nothing, pytree_handler.py:322-326) and the checkpoint metadata
(execution.py:190-206). -/
def dirOf (r : Req) : Dir :=
  { ckpt := some (r.custom.getD [])
    tree := some
      { info := some ⟨r.entries, r.zarr3⟩
        procs := r.procs.map fun p => ((p.1, none), p.2)
        arrays := r.arrays
        db := none } }

/-- An empty directory. -/
def emptyDir : Dir := ⟨none, none⟩

/-- The first part of a partial save, which runs before `save_async` returns (saving.py:236-249,
execution.py:241-295): refuse if there is a final checkpoint, create the temporary directory (removing
what is there: atomicity.py:133-142), and refuse replacements. -/
def start (w : World) (r : Req) : World × Option Err :=
  if w.final.isSome then (w, some .fileExists)
  else
    let w' := { w with tmp := some emptyDir }
    if (keys r.entries).any (conflicts (pendingKeys w.sess)) then (w', some .replacement)
    else (w', none)

/-- The background writes; they fail if the temporary directory is gone. -/
def write (w : World) (r : Req) : World × Option Err :=
  match w.tmp with
  | none => (w, some .notFound)
  | some _ => ({ w with tmp := some (dirOf r) }, none)

/-- `finalize` of the temporary path, which ends with `_EmptySnapshot.replace_source`
(snapshot.py:161-184): create the session directory, move the temporary directory into it. -/
def publish (w : World) (r : Req) : World × Option Err :=
  match w.tmp with
  | none => (w, some .notFound)
  | some d =>
    let s := w.sess.getD ⟨emptyDir, []⟩
    ({ w with tmp := none, sess := some { s with pend := s.pend ++ [(r.id, d)] } }, none)

/-- One storage step of a partial save. -/
inductive Step | start (r : Req) | write (r : Req) | publish (r : Req)
deriving DecidableEq, Repr

def step (w : World) : Step → World × Option Err
  | .start r => start w r
  | .write r => write w r
  | .publish r => publish w r

/-- Execution of steps up to the end or the first error. -/
def steps (w : World) : List Step → World × Option Err
  | [] => (w, none)
  | x :: xs => match step w x with
    | (w', none) => steps w' xs
    | (w', some e) => (w', some e)

/-- The steps of a save. -/
def saveSteps (r : Req) : List Step := [.start r, .write r, .publish r]

/-- `partial.save`, saving.py:88-164. -/
def save (w : World) (r : Req) : World × Option Err := steps w (saveSteps r)

/-- Several saves, one after the other. -/
def saves (w : World) : List Req → World × Option Err
  | [] => (w, none)
  | r :: rs => match save w r with
    | (w', none) => saves w' rs
    | (w', some e) => (w', some e)

/-! ### Finalizing -/

/-- Storage actions of `_merge_all` for the pending directory `p`. -/
inductive Act
  | mkTree
  | ckptMove (p : Nat) | ckptUnlink | ckptWrite (m : List (Nat × Nat)) | ckptDrop (p : Nat)
  | infoMove (p : Nat) | infoUnlink | infoWrite (m : Info) | infoDrop (p : Nat)
  | treeMove (p : Nat)
  | procMove (p : Nat) (n m : ProcName)
  | arrMove (p k : Nat) | arrUnlink (k : Nat) | arrWrite (k : Nat) (l : List Nat) | arrDrop (p k : Nat)
  | rmTree (p : Nat)
  | rmPend (p : Nat)
  | mergeDb
  | collision
deriving DecidableEq, Repr

/-- The pytree directory of the session. -/
def baseTree (s : Session) : TreeDir := s.base.tree.getD ⟨none, [], [], none⟩

def setTree (s : Session) (t : TreeDir) : Session := { s with base := { s.base with tree := some t } }

/-- Change the pending directory `p`. -/
def onPend (s : Session) (p : Nat) (f : Dir → Dir) : Session :=
  { s with pend := s.pend.map fun x => if x.1 = p then (x.1, f x.2) else x }

/-- Change the pytree directory of the pending directory `p`. -/
def onPendTree (s : Session) (p : Nat) (f : TreeDir → TreeDir) : Session :=
  onPend s p fun d => { d with tree := d.tree.map f }

def pendDir (s : Session) (p : Nat) : Dir := (get s.pend p).getD emptyDir

def pendTree (s : Session) (p : Nat) : TreeDir := (pendDir s p).tree.getD ⟨none, [], [], none⟩

/-- `d.update(e)`. -/
def update {κ ν : Type} [DecidableEq κ] (d e : List (κ × ν)) : List (κ × ν) :=
  e.foldl (fun m p => put m p.1 p.2) d

/-- `merge_ocdbt_per_process_files`, ocdbt_utils.py:138-213: the merged database gets every entry of the
databases of the processes (in one transaction); nothing is done without any. -/
def mergedDb (t : TreeDir) : Option (List (Key × Nat)) :=
  if t.procs.isEmpty then t.db
  else some (t.procs.foldl (fun m p => update m p.2) (t.db.getD []))

/-- Effect of one storage action (`none`: `FileExistsError`). -/
def exec (s : Session) : Act → Option Session
  | .mkTree => some (setTree s (baseTree s))
  | .ckptMove p => some (onPend { s with base := { s.base with ckpt := (pendDir s p).ckpt } } p
      fun d => { d with ckpt := none })
  | .ckptUnlink => some { s with base := { s.base with ckpt := none } }
  | .ckptWrite m => some { s with base := { s.base with ckpt := some m } }
  | .ckptDrop p => some (onPend s p fun d => { d with ckpt := none })
  | .infoMove p => some (onPendTree (setTree s { baseTree s with info := (pendTree s p).info }) p
      fun t => { t with info := none })
  | .infoUnlink => some (setTree s { baseTree s with info := none })
  | .infoWrite m => some (setTree s { baseTree s with info := some m })
  | .infoDrop p => some (onPendTree s p fun t => { t with info := none })
  | .treeMove p => some (onPend { s with base := { s.base with tree := (pendDir s p).tree } } p
      fun d => { d with tree := none })
  | .procMove p n m => some (onPendTree
      (setTree s { baseTree s with procs := (baseTree s).procs ++ [(m, (get (pendTree s p).procs n).getD [])] }) p
      fun t => { t with procs := del t.procs n })
  | .arrMove p k => some (onPendTree
      (setTree s { baseTree s with arrays := put (baseTree s).arrays k ((get (pendTree s p).arrays k).getD []) }) p
      fun t => { t with arrays := del t.arrays k })
  | .arrUnlink k => some (setTree s { baseTree s with arrays := del (baseTree s).arrays k })
  | .arrWrite k l => some (setTree s { baseTree s with arrays := put (baseTree s).arrays k l })
  | .arrDrop p k => some (onPendTree s p fun t => { t with arrays := del t.arrays k })
  | .rmTree p => some (onPend s p fun d => { d with tree := none })
  | .rmPend p => some { s with pend := del s.pend p }
  | .mergeDb => some (setTree s { baseTree s with db := mergedDb (baseTree s) })
  | .collision => none

/-- Execution up to the end or the first error. -/
def run (s : Session) : List Act → Session × Bool
  | [] => (s, true)
  | a :: as => match exec s a with
    | some s' => run s' as
    | none => (s, false)

/-- `_filter_conflicting_keys`, saving.py:266-306. -/
def filterConflicts (m : List (Key × Nat)) : List (Key × Nat) :=
  m.filter fun p => !m.any fun q => isPrefix p.1 q.1

/-- `_merge_pytree_metadata`, saving.py:331-345: `merge_trees(dst, src, overwrite=True)` of the files. -/
def mergeInfo (dst src : Info) : Info := ⟨filterConflicts (update dst.entries src.entries), src.zarr3⟩

/-- `_merge_checkpoint_metadata`, saving.py:433-439 (the custom metadata is taken to be a flat
dictionary). -/
def mergeCkpt (dst src : List (Nat × Nat)) : List (Nat × Nat) := update dst src

/-- `_rename_or_merge_json`, saving.py:309-328, for the checkpoint metadata: move the file, or write the
merged one (`async_path.write_text` first unlinks, async_path.py:64-73) and unlink the source. -/
def ckptActs (s : Session) (p : Nat) (d : Dir) : List Act :=
  match d.ckpt with
  | none => []
  | some m => match s.base.ckpt with
    | none => [.ckptMove p]
    | some m0 => [.ckptUnlink, .ckptWrite (mergeCkpt m0 m), .ckptDrop p]

/-- The same for `_METADATA`. -/
def infoActs (s : Session) (p : Nat) (i : Info) : List Act :=
  match (baseTree s).info with
  | none => [.infoMove p]
  | some i0 => [.infoUnlink, .infoWrite (mergeInfo i0 i), .infoDrop p]

/-- `_rename_ocdbt_process_dir`, saving.py:348-357. -/
def procActs (p : Nat) (t : TreeDir) : List Act :=
  t.procs.map fun x => .procMove p x.1 (x.1.1, some p)

/-- `_merge_array_metadatas`, saving.py:360-380. -/
def arrActs (s : Session) (p : Nat) (t : TreeDir) : List Act :=
  t.arrays.flatMap fun x => match get (baseTree s).arrays x.1 with
    | none => [.arrMove p x.1]
    | some l => [.arrUnlink x.1, .arrWrite x.1 (l ++ x.2), .arrDrop p x.1]

/-- `_recursive_merge`, saving.py:383-406, of a pytree directory that has no `_METADATA` (any more) and
so is not recognised as one: move what does not exist yet, fail where files collide. -/
def recursiveActs (s : Session) (p : Nat) (t : TreeDir) : List Act :=
  match s.base.tree with
  | none => [.treeMove p]
  | some b =>
    (t.procs.map fun x => if (get b.procs x.1).isSome then Act.collision else .procMove p x.1 x.1) ++
    (t.arrays.map fun x => if (get b.arrays x.1).isSome then Act.collision else .arrMove p x.1) ++
    [.rmTree p]

/-- `_merge_pytree_directory`, saving.py:409-432, or `_recursive_merge` without `_METADATA`
(`_is_pytree_dir`, 454-458). -/
def treeActs (s : Session) (p : Nat) (d : Dir) : List Act :=
  match d.tree with
  | none => []
  | some t => match t.info with
    | some i => [.mkTree] ++ infoActs s p i ++ procActs p t ++ arrActs s p t ++ [.rmTree p]
    | none => recursiveActs s p t

/-- Is the pytree directory of the pending directory recognised? -/
def hasTree (d : Dir) : Bool := match d.tree with
  | none => false
  | some t => t.info.isSome

/-- The merge of one pending directory, saving.py:477-498. -/
def dirActs (s : Session) (p : Nat) : List Act :=
  ckptActs s p (pendDir s p) ++ treeActs s p (pendDir s p) ++ [.rmPend p]

/-- The merges of the pending directories `ps`, in this order. -/
def mergeActs (s : Session) : List Nat → List Act
  | [] => []
  | p :: ps => dirActs s p ++ mergeActs (run s (dirActs s p)).1 ps

/-- Insertion of a name in a sorted list of names. -/
def insert (p : Nat) : List Nat → List Nat
  | [] => [p]
  | q :: qs => if p ≤ q then p :: q :: qs else q :: insert p qs

/-- `sorted(list_pending_dirs)`, saving.py:468: the names begin with the time. -/
def pendingNames (s : Session) : List Nat := (keys s.pend).foldr insert []

/-- `_merge_all`, saving.py:461-507.  `handler.finalize` is called for the pytree directories recognised
in this call. -/
def finalizeActs (s : Session) : List Act :=
  mergeActs s (pendingNames s) ++
    (if (pendingNames s).any fun p => hasTree (pendDir s p) then [.mergeDb] else [])

/-- `finalize`, saving.py:510-607; `crash` stops it before the storage action with this number
(the number of all of them: before the final rename). -/
def finalize (w : World) (crash : Option Nat) : World × Option Err :=
  if w.final.isSome then (w, some .fileExists)
  else match w.sess with
    | none => (w, some .notFound)
    | some s => match crash with
      | some n => ({ w with sess := some (run s ((finalizeActs s).take n)).1 }, none)
      | none =>
        let (s', ok) := run s (finalizeActs s)
        if ok then ({ w with sess := none, final := some s'.base }, none)
        else ({ w with sess := some s' }, some .fileExists)

end Verif.Partial
