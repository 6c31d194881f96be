/-!
# Saving a map of exported functions (`orbax.export.utils`)

Models `save_jax_exported_map` and `load_jax_exported_map`
(export/orbax/export/utils.py:420-483).

Simplifications, for the whole file: the file system is a list of directories and
a list of files with their bytes; a path is absolute or relative to a fixed
working directory, and the two kinds never name the same file; a method key is
the list of its parts between slashes, and does not begin with a slash;
serialization is a function `ser` and deserialization a partial function `de`.
-/

namespace Verif.Export.ExportedMap

/-- A path. -/
structure Path where
  isAbs : Bool
  parts : List String
  deriving DecidableEq

/-- `os.path.join(a, b)`: an absolute second path replaces the first. -/
def join (a b : Path) : Path := if b.isAbs then b else ⟨a.isAbs, a.parts ++ b.parts⟩

/-- The directory that a path is in. -/
def parent (p : Path) : Path := ⟨p.isAbs, p.parts.dropLast⟩

/-- The file system. -/
structure FS (B : Type) where
  dirs : List Path
  files : List (Path × B)

/-- The exceptions. -/
inductive Err where
  | exists
  | missing
  | noParent
  | corrupt
  | empty
  deriving DecidableEq

/-- `tf.io.gfile.exists`. -/
def pathExists {B : Type} (fs : FS B) (p : Path) : Bool :=
  fs.dirs.contains p || (fs.files.map (·.1)).contains p

/-- `.jax_exported` (utils.py:38). -/
def suffix : String := ".jax_exported"

/-- `f'{method_key}.{_FILE_TYPE}'` (utils.py:452): the suffix is added to the last
part. -/
def fileOf : List String → Path
  | [] => ⟨false, [suffix]⟩
  | ks => ⟨false, ks.dropLast ++ [ks.getLastD "" ++ suffix]⟩

/-- `_save_jax_exported_to_disk` (utils.py:420-429). -/
def saveOne {B X : Type} (ser : X → B) (fs : FS B) (p : Path) (x : X) : FS B × Option Err :=
  if pathExists fs p then (fs, some .exists)
  else if fs.dirs.contains (parent p) then ({ fs with files := (p, ser x) :: fs.files }, none)
  else (fs, some .noParent)

/-- The loop of `save_jax_exported_map` (utils.py:451-455): the directory is
joined twice. -/
def saveAll {B X : Type} (ser : X → B) (dir : Path) :
    List (List String × X) → FS B → FS B × Option Err
  | [], fs => (fs, none)
  | (k, x) :: m, fs =>
    match saveOne ser fs (join dir (join dir (fileOf k))) x with
    | (fs', none) => saveAll ser dir m fs'
    | (fs', some e) => (fs', some e)

/-- All the directories above a path, and the path: `makedirs`. -/
def ancestors (p : Path) : List Path :=
  (List.range (p.parts.length + 1)).map fun n => ⟨p.isAbs, p.parts.take n⟩

/-- `save_jax_exported_map` (utils.py:440-456). -/
def save {B X : Type} (ser : X → B) (dir : Path) (m : List (List String × X)) (fs : FS B) :
    FS B × Option Err :=
  if pathExists fs dir then (fs, some .exists)
  else saveAll ser dir m { fs with dirs := ancestors dir ++ fs.dirs }

/-- The files of a directory that have the suffix (`listdir` and `endswith`,
utils.py:473-475). -/
def listed {B : Type} (fs : FS B) (dir : Path) : List (String × B) :=
  fs.files.filterMap fun f =>
    if parent f.1 = dir ∧ f.1.parts ≠ [] then
      let n := f.1.parts.getLastD ""
      if suffix.toList <:+ n.toList then some (n, f.2) else none
    else none

/-- `method_key[: -len(f'.{_FILE_TYPE}')]` (utils.py:479). -/
def keyOf (n : String) : String := String.ofList (n.toList.take (n.toList.length - suffix.toList.length))

/-- Reading the files (utils.py:476-479). -/
def readAll {B X : Type} (de : B → Option X) : List (String × B) → Except Err (List (String × X))
  | [] => .ok []
  | (n, b) :: fs =>
    match de b with
    | none => .error .corrupt
    | some x =>
      match readAll de fs with
      | .error e => .error e
      | .ok m => .ok ((keyOf n, x) :: m)

/-- `load_jax_exported_map` (utils.py:459-483). -/
def load {B X : Type} (de : B → Option X) (dir : Path) (fs : FS B) :
    Except Err (List (String × X)) :=
  if !pathExists fs dir then .error .missing
  else
    match readAll de (listed fs dir) with
    | .error e => .error e
    | .ok [] => .error .empty
    | .ok m => .ok m

end Verif.Export.ExportedMap
