/-
Model of the handling of Google Cloud Storage paths: parsing, deletion of the
folders of a hierarchical namespace bucket, and listing of steps in it.

Files modelled (under /repo/checkpoint/orbax/checkpoint):
  _src/path/gcs_utils.py
  _src/path/step.py (the listing of steps in such a bucket)

Strings are lists of characters.  The storage service is modelled by the folders
and objects of one bucket: a folder can be deleted exactly if it is empty.

Core Lean only.
-/

namespace Verif.Hns

abbrev Str := List Char

/-- A folder, as the names on the way from the root of the bucket. -/
abbrev Folder := List Str

/-- One bucket: its folders, and its objects with the folder they are in. -/
structure Bucket where
  folders : List Folder
  objects : List (Folder × Str)
  deriving DecidableEq, Repr

/-! ### Strings -/

/-- Python `str.rstrip('/')`. -/
def rstrip (s : Str) : Str := (s.reverse.dropWhile (· == '/')).reverse

/-- Python `str.lstrip('/')`. -/
def lstrip (s : Str) : Str := s.dropWhile (· == '/')

/-- Python `str.strip('/')`. -/
def strip (s : Str) : Str := rstrip (lstrip s)

/-- Python `posixpath.dirname`. -/
def dirname (s : Str) : Str :=
  let head := (s.reverse.dropWhile (· != '/')).reverse
  if head.all (· == '/') then head else rstrip head

/-- The id of a folder: each name is followed by a slash. -/
def render : Folder → Str
  | [] => []
  | c :: cs => c ++ '/' :: render cs

/-! ### Paths -/

/-- gcs_utils.py:24: the prefix of the paths. -/
def gs : Str := ['g', 's', ':', '/', '/']

/-- gcs_utils.py:27-28: `is_gcs_path`. -/
def isGcs (path : Str) : Bool := gs.isPrefixOf path

/-- Python `urlparse` for a string that begins with `gs://`: the network location
ends at `/`, `?` or `#`; the path ends at `?` or `#`.  (That `urlparse` removes
tabs, line ends and leading blanks is not modelled.) -/
def urlparse (path : Str) : Str × Str :=
  let rest := path.drop gs.length
  (rest.takeWhile fun c => c != '/' && c != '?' && c != '#',
   (rest.dropWhile fun c => c != '/' && c != '?' && c != '#').takeWhile
     fun c => c != '?' && c != '#')

/-- gcs_utils.py:31-42: `parse_gcs_path`. -/
def parse (path : Str) : Str × Str :=
  let p := (urlparse path).2
  let p := match p with
    | '/' :: rest => rest
    | p => p
  ((urlparse path).1, if p.getLast? == some '/' then p else p ++ ['/'])

/-! ### Deletion -/

/-- gcs_utils.py:74-79: the resource name of a folder of bucket `b`:
`projects/_/buckets/{bucket}/folders/{folder}`. -/
def base (b : Str) : Str :=
  "projects/_/buckets/".toList ++ b ++ "/folders".toList ++ ['/']

/-- Google Cloud Storage: `list_folders` gives the folders whose id begins with
the prefix. -/
def listFolders (b : Str) (s : Bucket) (pre : Str) : List Str :=
  (s.folders.filter fun f => pre.isPrefixOf (render f)).map fun f => base b ++ render f

/-- Google Cloud Storage: a folder is empty. -/
def isEmpty (s : Bucket) (f : Folder) : Bool :=
  s.folders.all (fun g => g == f || !f.isPrefixOf g) &&
    s.objects.all (fun o => !f.isPrefixOf o.1)

/-- Google Cloud Storage: `delete_folder` removes an empty folder, and fails for
others and for one that does not exist. -/
def deleteFolder (b : Str) (s : Bucket) (name : Str) : Option Bucket :=
  match s.folders.find? (fun f => base b ++ render f == name) with
  | none => none
  | some f =>
    if isEmpty s f then some { s with folders := s.folders.filter (· != f) } else none

/-- How `cleanup_hns_folders` ends. -/
inductive Result where
  | done (s : Bucket)
  | raised (s : Bucket)
  /-- the loop does not end -/
  | spins (s : Bucket)
  deriving DecidableEq, Repr

/-- The bucket afterwards. -/
def Result.bucket : Result → Bucket
  | .done s | .raised s | .spins s => s

/-- gcs_utils.py:91-92: the requests of one round. -/
def deleteAll (b : Str) (s : Bucket) : List Str → Result
  | [] => .done s
  | n :: ns =>
    match deleteFolder b s n with
    | none => .raised s
    | some s' => deleteAll b s' ns

/-- gcs_utils.py:88: the name of the folder above. -/
def parentName (n : Str) : Str := dirname (rstrip n) ++ ['/']

/-- gcs_utils.py:88-89: the folders that are not above another one. -/
def leaves (folders : List Str) : List Str :=
  folders.filter fun n => !(folders.map parentName).contains n

/-- gcs_utils.py:87-93: the loop.  `ord` is the order in which the set of leaves is
gone through; `fuel` bounds the rounds. -/
def loop (b : Str) (ord : List Str → List Str) : Nat → Bucket → List Str → Result
  | _, s, [] => .done s
  | 0, s, _ :: _ => .spins s
  | fuel + 1, s, n :: ns =>
    match deleteAll b s (ord (leaves (n :: ns))) with
    | .done s' =>
      loop b ord fuel s' ((n :: ns).filter fun x => !(leaves (n :: ns)).contains x)
    | r => r

/-- gcs_utils.py:66-101: `cleanup_hns_folders`. -/
def cleanup (ord : List Str → List Str) (s : Bucket) (path : Str) : Result :=
  let b := (parse path).1
  let names := listFolders b s (strip (parse path).2 ++ ['/'])
  loop b ord names.length s names

/-- epath `rmtree`: removes the objects below a folder. -/
def rmObjects (s : Bucket) (f : Folder) : Bucket :=
  { s with objects := s.objects.filter fun o => !f.isPrefixOf o.1 }

/-- The path of a folder of bucket `b`, as `epath.Path` writes it. -/
def pathOf (b : Str) (f : Folder) : Str := gs ++ b ++ f.flatMap ('/' :: ·)

/-- gcs_utils.py:104-119: `rmtree`, for the folder `f`; `hns` says whether the
bucket has a hierarchical namespace. -/
def rmtree (ord : List Str → List Str) (hns : Bool) (s : Bucket) (b : Str) (f : Folder) :
    Result :=
  if hns then cleanup ord (rmObjects s f) (pathOf b f) else .done (rmObjects s f)

/-! ### Listing -/

/-- Google Cloud Storage: `list_blobs(prefix, delimiter='/',
include_folders_as_prefixes=True)`: `prefixes` are the beginnings, up to the next
slash after the prefix, of the ids of folders and objects. -/
def prefixes (s : Bucket) (pre : Str) : List Str :=
  let ids := s.folders.map render ++ s.objects.map fun o => render o.1 ++ o.2
  ((ids.filter fun i => pre.isPrefixOf i).filterMap fun i =>
    let rest := i.drop pre.length
    if rest.contains '/' then some (pre ++ rest.takeWhile (· != '/') ++ ['/']) else none).eraseDups

/-- Python `os.path.join` of a directory that ends with a slash and a name. -/
def join (dir name : Str) : Str :=
  if name.head? == some '/' then name else dir ++ name

/-- step.py:394-417: the paths of possible steps in a bucket with a hierarchical
namespace; the names of the directories, without the path. -/
def globHns (s : Bucket) (path : Str) (stepPrefix : Str) : List Str :=
  (prefixes s (parse path).2).filter fun x => (join (parse path).2 stepPrefix).isPrefixOf x

end Verif.Hns
