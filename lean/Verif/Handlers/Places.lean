/-!
# Where parameters are stored

Models how a checkpoint directory and a parameter name become a place in storage, `_src/serialization/tensorstore_utils.py`,
and how the databases of the processes become one, `_src/serialization/ocdbt_utils.py`.

Simplifications: texts are lists of characters; digits and letters are ASCII; a key never ends in a line break; the driver for
Google Cloud Storage is not told apart from its gRPC variant; caches, file sizes and the separate place of the manifest are left
out. TensorStore stores the files of an array under the parameter name and a slash. A database that does not exist is empty.
The databases are copied in the order in which they are listed, which is any order.
-/

namespace Verif.Handlers.Places

abbrev Str := List Char

inductive Err where
  | valueError
deriving DecidableEq, Repr

/-! ## Paths -/

/-- `str.split` with one character. -/
def splitOn (c : Char) : Str → List Str
  | [] => [[]]
  | x :: l =>
    if x = c then [] :: splitOn c l
    else
      match splitOn c l with
      | [] => [[x]]
      | h :: t => (x :: h) :: t

/-- `str.join` with one character. -/
def joinWith (c : Char) : List Str → Str
  | [] => []
  | [a] => a
  | a :: b :: l => a ++ c :: joinWith c (b :: l)

/-- One component in `posixpath.normpath`; the components so far are in reverse. -/
def normStep (abs : Bool) (acc : List Str) (c : Str) : List Str :=
  if c = [] ∨ c = ['.'] then acc
  else if c ≠ ['.', '.'] ∨ (abs = false ∧ acc = []) ∨ acc.head? = some ['.', '.'] then c :: acc
  else acc.tail

/-- The number of slashes that `posixpath.normpath` leaves in front. -/
def leading : Str → Nat
  | '/' :: '/' :: '/' :: _ => 1
  | '/' :: '/' :: _ => 2
  | '/' :: _ => 1
  | _ => 0

/-- `os.path.normpath`. -/
def normpath (s : Str) : Str :=
  let p := List.replicate (leading s) '/' ++
    joinWith '/' ((splitOn '/' s).foldl (normStep (decide (0 < leading s))) []).reverse
  if p = [] then ['.'] else p

/-- `.replace('gs:/', 'gs://')`. -/
def replaceGs : Str → Str
  | 'g' :: 's' :: ':' :: '/' :: l => 'g' :: 's' :: ':' :: '/' :: '/' :: replaceGs l
  | c :: l => c :: replaceGs l
  | [] => []

/-- `os.path.join`. -/
def pjoin (a b : Str) : Str :=
  if b.head? = some '/' then b
  else if a = [] ∨ a.getLast? = some '/' then a ++ b
  else a ++ '/' :: b

/-! ## Key-value stores -/

/-- A directory of the file system or a prefix in a bucket. -/
inductive Base where
  | file (path : Str)
  | gcs (bucket path : Str)
deriving DecidableEq, Repr

/-- A key-value store: whether it is an OCDBT database, where, the key prefix in it, and whether reads are coalesced. -/
structure Kv where
  ocdbt : Bool
  base : Base
  name : Option Str
  coalesce : Bool
deriving DecidableEq, Repr

def gsPrefix : Str := ['g', 's', ':', '/', '/']

/-- `_get_kvstore_for_gcs`, tensorstore_utils.py:141-161. -/
def gcsBase (p : Str) : Except Err Base :=
  if gsPrefix.isPrefixOf p then
    .ok (.gcs ((p.drop 5).takeWhile (· ≠ '/')) (((p.drop 5).dropWhile (· ≠ '/')).drop 1))
  else .error .valueError

def baseOf (isGcs : Bool) (p : Str) : Except Err Base :=
  if isGcs then gcsBase p else .ok (.file p)

/-- `re.fullmatch('[A-Za-z0-9]+', process_id)`. -/
def validPid (p : Str) : Bool := !p.isEmpty && p.all fun c => c.isAlphanum

def processPrefix : Str := ['o', 'c', 'd', 'b', 't', '.', 'p', 'r', 'o', 'c', 'e', 's', 's', '_']
def replicaPart : Str := ['r', 'e', 'p', 'l', 'i', 'c', 'a', '_']

/-- The name of the subdirectory of a process, tensorstore_utils.py:204-211. -/
def subdir (pid : Str) (replica : Bool) : Str :=
  processPrefix ++ ((if replica then replicaPart else []) ++ pid)

/-- `build_kvstore_tspec`, tensorstore_utils.py:164-277. -/
def build (directory : Str) (name : Option Str) (useOcdbt : Bool) (pid : Option Str) (replica : Bool) : Except Err Kv :=
  let d := replaceGs (normpath directory)
  let isGcs := gsPrefix.isPrefixOf d
  if useOcdbt then
    if isGcs = false ∧ d.head? ≠ some '/' then .error .valueError
    else
      match pid with
      | none =>
        match baseOf isGcs d with
        | .error e => .error e
        | .ok b => .ok ⟨true, b, name, isGcs⟩
      | some p =>
        if validPid p then
          match baseOf isGcs (pjoin d (subdir p replica)) with
          | .error e => .error e
          | .ok b => .ok ⟨true, b, name, isGcs⟩
        else .error .valueError
  else
    match baseOf isGcs (match name with | none => d | some n => pjoin d n) with
    | .error e => .error e
    | .ok b => .ok ⟨false, b, none, false⟩

/-- `s` in `l`, for texts. -/
def hasSub (s : Str) : Str → Bool
  | [] => s.isEmpty
  | c :: l => s.isPrefixOf (c :: l) || hasSub s l

/-- `build_kvstore_tspec_for_merge`, tensorstore_utils.py:280-294. -/
def buildForMerge (directory sub : Str) : Except Err Kv :=
  build directory none true (some ((splitOn '_' sub).getLastD [])) (hasSub replicaPart sub)

/-- `str` of a process index. -/
def decimal (n : Nat) : Str := Nat.toDigits 10 n

/-- `get_process_index_for_subdir`, ocdbt_utils.py:220-228. -/
def processId (useOcdbt : Bool) (override : Option Str) (index : Nat) : Option Str :=
  if useOcdbt then
    match override with
    | some (c :: l) => some (c :: l)
    | _ => some (decimal index)
  else none

/-- The store an array is read from, `ArrayReadSpec`, tensorstore_utils.py:507-542. -/
def readStore (directory name : Str) (useOcdbt : Bool) : Except Err Kv := build directory (some name) useOcdbt none false

/-- The store a process writes an array to, `ArrayWriteSpec`, tensorstore_utils.py:552-580, as it is called by the handlers. -/
def writeStore (directory name : Str) (useOcdbt : Bool) (override : Option Str) (index : Nat) (replica : Bool) : Except Err Kv :=
  build directory (some name) useOcdbt (processId useOcdbt override index) replica

/-! ## Keys of an array -/

/-- The files of an array in Zarr version 2: its metadata, or the chunk at a position of the grid. -/
inductive Part where
  | metadata
  | chunk (index : List Nat)
deriving DecidableEq, Repr

def zarray : Str := ['.', 'z', 'a', 'r', 'r', 'a', 'y']

def Part.file : Part → Str
  | .metadata => zarray
  | .chunk [] => ['0']
  | .chunk (i :: l) => joinWith '.' ((i :: l).map decimal)

/-- The key of a file of a parameter. -/
def keyOf (name file : Str) : Str := if name = [] then file else name ++ '/' :: file

/-- The part before the last slash, if any, and the part after it. -/
def lastSplit : Str → Option Str × Str
  | [] => (none, [])
  | c :: l =>
    match lastSplit l with
    | (some a, b) => (some (c :: a), b)
    | (none, b) => if c = '/' then (some [], b) else (none, c :: b)

/-- `\d+(\.\d+)*`. -/
def isChunkFile (s : Str) : Bool := (splitOn '.' s).all fun d => !d.isEmpty && d.all Char.isDigit

/-- What `_validate_params` makes of one key, ocdbt_utils.py:93-118: the name, and whether it is the metadata. -/
def classify (k : Str) : Str × Bool :=
  let (a, b) := lastSplit k
  if b = zarray then (a.getD [], true)
  else if isChunkFile b then (a.getD [], false)
  else (k, false)

/-- `_validate_params`, ocdbt_utils.py:34-138, for Zarr version 2. -/
def validKeys (keys : List Str) : Bool :=
  let withMeta := (keys.map classify).filterMap fun x => if x.2 then some x.1 else none
  let withData := (keys.map classify).filterMap fun x => if x.2 then none else some x.1
  withMeta.all (withData.contains ·) && withData.all (withMeta.contains ·)

/-! ## Merging the databases of the processes -/

/-- The databases in storage. -/
abbrev Store (β : Type) := List (Base × List (Str × β))

def get {κ ν : Type} [DecidableEq κ] (m : List (κ × ν)) (k : κ) : Option ν := (m.find? fun e => e.1 = k).map (·.2)

def put {κ ν : Type} [DecidableEq κ] (m : List (κ × ν)) (k : κ) (v : ν) : List (κ × ν) :=
  (k, v) :: m.filter fun e => e.1 ≠ k

/-- Where a directory is. -/
def place (directory : Str) : Base :=
  if gsPrefix.isPrefixOf directory then
    .gcs ((directory.drop 5).takeWhile (· ≠ '/')) (((directory.drop 5).dropWhile (· ≠ '/')).drop 1)
  else .file directory

/-- What follows a prefix. -/
def after : Str → Str → Option Str
  | [], s => some s
  | _ :: _, [] => none
  | a :: p, c :: s => if a = c then after p s else none

/-- The name of a place as an entry of a directory. -/
def childName : Base → Base → Option Str
  | .file d, .file p => (after (d ++ ['/']) p).filter fun n => !n.contains '/'
  | .gcs b d, .gcs b' p =>
    if b = b' then (after (if d = [] then [] else d ++ ['/']) p).filter fun n => !n.contains '/' else none
  | _, _ => none

/-- `directory.glob('ocdbt.process_*')`. -/
def listing {β : Type} (s : Store β) (directory : Str) : List Str :=
  (s.filterMap fun e => childName (place directory) e.1).filter fun n => processPrefix.isPrefixOf n

def buildAll (directory : Str) : List Str → Except Err (List Kv)
  | [] => .ok []
  | n :: l =>
    match buildForMerge directory n with
    | .error e => .error e
    | .ok k =>
      match buildAll directory l with
      | .error e => .error e
      | .ok ks => .ok (k :: ks)

/-- Copying a database into another one. -/
def copy {β : Type} (m d : List (Str × β)) : List (Str × β) := d.foldl (fun m e => put m e.1 e.2) m

/-- `merge_ocdbt_per_process_files`, ocdbt_utils.py:141-211. Nothing is written if it fails. -/
def merge {β : Type} (s : Store β) (directory : Str) (zarr3 validate : Bool) : Except Err (Store β) :=
  match listing s directory with
  | [] => .ok s
  | n :: names =>
    match buildAll directory (n :: names), build directory none true none false with
    | .error e, _ => .error e
    | .ok _, .error e => .error e
    | .ok kids, .ok parent =>
      let merged := (kids.map fun k => (get s k.base).getD []).foldl copy ((get s parent.base).getD [])
      if validate && !zarr3 && !merged.isEmpty && !validKeys (merged.map (·.1)) then .error .valueError
      else .ok (put s parent.base merged)

/-! ## Sharding entries -/

/-- The alphabet of `base64.urlsafe_b64encode`. -/
def alphabet : List Char := [
   'A', 'B', 'C', 'D', 'E', 'F', 'G', 'H', 'I', 'J', 'K', 'L', 'M', 'N', 'O', 'P', 'Q', 'R', 'S', 'T',
   'U', 'V', 'W', 'X', 'Y', 'Z', 'a', 'b', 'c', 'd', 'e', 'f', 'g', 'h', 'i', 'j', 'k', 'l', 'm', 'n',
   'o', 'p', 'q', 'r', 's', 't', 'u', 'v', 'w', 'x', 'y', 'z', '0', '1', '2', '3', '4', '5', '6', '7',
   '8', '9', '-', '_']

def digit64 (n : Nat) : Char := alphabet.getD n '='

/-- `base64.urlsafe_b64encode`. -/
def base64 : List UInt8 → Str
  | [] => []
  | [a] => [digit64 (a.toNat / 4), digit64 (a.toNat % 4 * 16), '=', '=']
  | [a, b] => [digit64 (a.toNat / 4), digit64 (a.toNat % 4 * 16 + b.toNat / 16), digit64 (b.toNat % 16 * 4), '=']
  | a :: b :: c :: l =>
    digit64 (a.toNat / 4) :: digit64 (a.toNat % 4 * 16 + b.toNat / 16) ::
      digit64 (b.toNat % 16 * 4 + c.toNat / 64) :: digit64 (c.toNat % 64) :: base64 l

/-- The JSON pointer of the sharding of a parameter, `get_sharding_tensorstore_spec`, tensorstore_utils.py:702-713; the name is
given by its UTF-8 bytes. -/
def shardingPointer (name : List UInt8) : Str := '/' :: base64 name

end Verif.Handlers.Places
