/-!
# Is this directory a checkpoint?

Models `checkpoint/orbax/checkpoint/_src/path/format_utils.py`: the public `is_orbax_checkpoint` and the
functions it uses; and, so that it can be asked about what Orbax writes, the names of the files that
saving leaves in a directory (`_src/handlers/base_pytree_checkpoint_handler.py`,
`_src/serialization/tensorstore_utils.py`, `_src/checkpointers/checkpointer.py`).
-/
namespace Verif.Path.Format

/-- A file (does its content parse as JSON?) or a directory with its entries. -/
inductive Node where
  | file (json : Bool)
  | dir (entries : List (String × Node))

/-- Entries of a node, `iterdir`; a file has none (the code does not list files). -/
def Node.entries : Node → List (String × Node)
  | .file _ => []
  | .dir es => es

/-- `is_dir`. -/
def Node.isDir : Node → Bool
  | .file _ => false
  | .dir _ => true

/-- `(path / name).exists()`. -/
def Node.has (n : Node) (name : String) : Bool := n.entries.any fun e => decide (e.1 = name)

/-- `is_ocdbt_checkpoint`, `format_utils.py:26-29`. -/
def isOcdbt (n : Node) : Bool := n.has "manifest.ocdbt"

/-- `_has_msgpack_metadata_file`, `format_utils.py:32-33`. -/
def hasMsgpack (n : Node) : Bool := n.has "checkpoint"

/-- `_has_pytree_metadata_file`, `format_utils.py:36-40`. -/
def hasPytreeMetadata (n : Node) : Bool := n.has "_METADATA" || hasMsgpack n

/-- `_has_zarray_files`, `format_utils.py:43-44`: one truth value for each directory in it. -/
def zarrayFiles (n : Node) : List Bool :=
  (n.entries.filter fun e => e.2.isDir).map fun e => e.2.has ".zarray"

/-- `_has_tensorstore_data_files`, `format_utils.py:47-48`. -/
def hasTensorstore (n : Node) : Bool := isOcdbt n || (zarrayFiles n).any id

/-- `is_pytree_checkpoint`, `format_utils.py:51-57`. -/
def isPytree (n : Node) : Bool :=
  (hasPytreeMetadata n && hasTensorstore n) || (hasMsgpack n && (zarrayFiles n).all (fun x => !x))

/-- `metadata_store.read(step_metadata_file_path(path)) is not None`, `_src/metadata/checkpoint.py:197-235`:
the file is there, is a file, and is JSON. Simplified: the JSON value `null` is not JSON. -/
def readsStepMetadata (n : Node) : Bool :=
  n.entries.any fun e => decide (e.1 = "_CHECKPOINT_METADATA") && (match e.2 with | .file j => j | .dir _ => false)

/-- The errors of `is_orbax_checkpoint`. -/
inductive Err | notFound | notADirectory
deriving DecidableEq, Repr

/-- `is_orbax_checkpoint`, `format_utils.py:60-113`; `none`: the path does not exist. -/
def isOrbax : Option Node → Except Err Bool
  | none => .error .notFound
  | some n =>
    if !n.isDir then .error .notADirectory
    else if readsStepMetadata n then .ok true
    else if isPytree n then .ok true
    else .ok (n.entries.any fun e => isPytree e.2)

/-! ## What saving writes -/

/-- Options of saving a tree. -/
structure Opts where
  ocdbt : Bool
  zarr3 : Bool
deriving DecidableEq, Repr

/-- A leaf: something stored as an array (arrays, numbers), or a string. -/
inductive Leaf | array | text
deriving DecidableEq, Repr

/-- The directory of an array stored by itself: `tensorstore_utils.py:716-733` for the name of the
metadata file, with chunks named by numbers. -/
def arrayDir (zarr3 : Bool) : Node :=
  .dir [(if zarr3 then "zarr.json" else ".zarray", .file true), ("0", .file false)]

/-- The directory of a saved tree: `_METADATA` (`base_pytree_checkpoint_handler.py:1176-1206`), strings in
one file (`type_handlers.py`, `StringHandler`), and the arrays: one database for all of them (OCDBT), or a
directory for each. Sharding file, array metadata and the databases of single processes left out. -/
def treeEntries (o : Opts) (leaves : List (String × Leaf)) : List (String × Node) :=
  [("_METADATA", .file true)] ++
  (if leaves.any (fun l => decide (l.2 = .text)) then [("_strings.json", .file true)] else []) ++
  (if o.ocdbt then
    (if leaves.any (fun l => decide (l.2 = .array)) then [("manifest.ocdbt", .file false), ("d", .dir [])] else [])
   else (leaves.filter fun l => decide (l.2 = .array)).map fun l => (l.1, arrayDir o.zarr3))

/-- An item of a step, saved by the handler of trees. -/
def treeDir (o : Opts) (leaves : List (String × Leaf)) : Node := .dir (treeEntries o leaves)

/-- A directory written by a `Checkpointer` with a handler of trees and no items
(`checkpointer.py:196-274`): the files of the tree and the step metadata. -/
def plainDir (o : Opts) (leaves : List (String × Leaf)) : Node :=
  .dir (("_CHECKPOINT_METADATA", .file true) :: treeEntries o leaves)

/-- A step directory of a `CheckpointManager`: step metadata and a directory for each item. The
metadata is written when the directory is made, before the items (`checkpointer.py:376-400`). -/
def stepDir (json : Bool) (items : List (String × Node)) : Node :=
  .dir (("_CHECKPOINT_METADATA", .file json) :: items)

end Verif.Path.Format
