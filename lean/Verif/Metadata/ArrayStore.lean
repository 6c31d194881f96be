import Verif.Assoc

/-!
# Model of the per-process array metadata store

Models `/repo/checkpoint/orbax/checkpoint/_src/metadata/array_metadata_store.py`, and the readers
`_get_param_infos_with_write_shape` (`_src/handlers/base_pytree_checkpoint_handler.py:1122-1173`) and `_wrap_random_key_data`
(`_src/serialization/jax_array_handlers.py:888-925`).  The JSON text is not modelled: writing a JSON value and reading it back
gives the same value, passed through the object hook.  Booleans and floats are left out of JSON.  Exceptions are `none`.
-/

namespace Verif.ArrayStore

open Verif

abbrev Name := List Char

mutual
/-- A Python value that a JSON value becomes: the last constructor is a `SerializedArrayMetadata`. -/
inductive J where
  | null
  | num (n : Nat)
  | str (s : Name)
  | arr (l : Js)
  | obj (f : Fs)
  | am (name : J) (write chunk : Js) (ext : J)
inductive Js where
  | nil
  | cons (a : J) (r : Js)
inductive Fs where
  | nil
  | cons (k : Name) (a : J) (r : Fs)
end

/-- `d.get(k)`. -/
def Fs.get : Fs → Name → Option J
  | .nil, _ => none
  | .cons k a r, n => if n = k then some a else r.get n

def Js.ofList : List J → Js
  | [] => .nil
  | a :: l => .cons a (Js.ofList l)

def Js.toList : Js → List J
  | .nil => []
  | .cons a r => a :: r.toList

def Fs.keys : Fs → List Name
  | .nil => []
  | .cons k _ r => k :: r.keys

def kMeta : Name := ['a', 'r', 'r', 'a', 'y', '_', 'm', 'e', 't', 'a', 'd', 'a', 't', 'a']
def kMetas : Name := ['a', 'r', 'r', 'a', 'y', '_', 'm', 'e', 't', 'a', 'd', 'a', 't', 'a', 's']
def kParam : Name := ['p', 'a', 'r', 'a', 'm', '_', 'n', 'a', 'm', 'e']
def kWrite : Name := ['w', 'r', 'i', 't', 'e', '_', 's', 'h', 'a', 'p', 'e']
def kChunk : Name := ['c', 'h', 'u', 'n', 'k', '_', 's', 'h', 'a', 'p', 'e']
def kExt : Name := ['e', 'x', 't', '_', 'm', 'e', 't', 'a', 'd', 'a', 't', 'a']
/-- `RANDOM_KEY_IMPL`, array_metadata.py:26. -/
def kRandom : Name := ['r', 'a', 'n', 'd', 'o', 'm', '_', 'k', 'e', 'y', '_', 'i', 'm', 'p', 'l']

/-- `ArrayMetadata` and `SerializedArrayMetadata`, array_metadata.py:29-58, with the fields that are stored.  `ext_metadata` is
`null` or an object. -/
structure AM where
  name : Name
  write : List Nat
  chunk : List Nat
  ext : J

def nums (l : List Nat) : Js := Js.ofList (l.map .num)

/-! ### Serializer, array_metadata_store.py:81-131 -/

/-- `Serializer._to_dict`, array_metadata_store.py:84-95. -/
def toDict (m : AM) : J :=
  .obj (.cons kMeta (.obj (.cons kParam (.str m.name) (.cons kWrite (.arr (nums m.write))
    (.cons kChunk (.arr (nums m.chunk)) (.cons kExt m.ext .nil))))) .nil)

mutual
/-- Can `json.dumps` write the value? -/
def dumpable : J → Bool
  | .null => true
  | .num _ => true
  | .str _ => true
  | .arr l => dumpableL l
  | .obj f => dumpableF f
  | .am .. => false
def dumpableL : Js → Bool
  | .nil => true
  | .cons a r => dumpable a && dumpableL r
def dumpableF : Fs → Bool
  | .nil => true
  | .cons _ a r => dumpable a && dumpableF r
end

/-- `Serializer.serialize`, array_metadata_store.py:111-120. -/
def serialize (ms : List AM) : Option J :=
  let o := J.obj (.cons kMetas (.arr (Js.ofList (ms.map toDict))) .nil)
  if dumpable o then some o else none

/-- `tuple(v)`. -/
def tuple : J → Option Js
  | .arr l => some l
  | .str s => some (Js.ofList (s.map fun c => .str [c]))
  | .obj f => some (Js.ofList (f.keys.map .str))
  | _ => none

/-- `Serializer._from_dict`, array_metadata_store.py:97-109. -/
def fromDict (f : Fs) : Option J :=
  match f.get kMeta with
  | none => some (.obj f)
  | some (.obj g) =>
    match g.get kParam, (g.get kWrite).bind tuple, (g.get kChunk).bind tuple with
    | some p, some w, some c => some (.am p w c ((g.get kExt).getD .null))
    | _, _, _ => none
  | some _ => none

mutual
/-- `json.loads(text, object_hook=self._from_dict)`: the hook is applied to every object, innermost first. -/
def hook : J → Option J
  | .arr l => (hookL l).map .arr
  | .obj f => (hookF f).bind fromDict
  | v => some v
def hookL : Js → Option Js
  | .nil => some .nil
  | .cons a r => match hook a, hookL r with
    | some a', some r' => some (.cons a' r')
    | _, _ => none
def hookF : Fs → Option Fs
  | .nil => some .nil
  | .cons k a r => match hook a, hookF r with
    | some a', some r' => some (.cons k a' r')
    | _, _ => none
end

/-- The numbers of a tuple. -/
def natsOf : List J → Option (List Nat)
  | [] => some []
  | .num n :: l => (natsOf l).map (n :: ·)
  | _ :: _ => none

/-- An element of the list that was read, as metadata. -/
def toAM : J → Option AM
  | .am (.str n) w c e => match natsOf w.toList, natsOf c.toList with
    | some w, some c => some ⟨n, w, c, e⟩
    | _, _ => none
  | _ => none

/-- `Serializer.deserialize`, array_metadata_store.py:122-127. -/
def deserialize (text : J) : Option (List AM) :=
  match hook text with
  | some (.obj f) => match f.get kMetas with
    | none => some []
    | some (.arr l) => l.toList.mapM toAM
    | some _ => none
  | _ => none

/-! ### Store, array_metadata_store.py:134-297 -/

/-- The file of a process; `torn`: a write stopped half way. -/
inductive File where
  | torn
  | text (v : J)

/-- The files `array_metadatas/process_<i>` of a checkpoint, by process index. -/
abbrev Files := List (Nat × File)

/-- `Store._get_array_metadatas`, array_metadata_store.py:224-229. -/
def readFile : File → Option (List AM)
  | .torn => none
  | .text v => deserialize v

/-- The first half of `Store.write`, array_metadata_store.py:205-211: all the metadata to be written. -/
def collect (fs : Files) (p : Nat) (ms : List AM) : Option (List AM) :=
  match Assoc.get fs p with
  | some f => (readFile f).map (· ++ ms)
  | none => some ms

/-- The second half, array_metadata_store.py:212-214. -/
def flush (fs : Files) (p : Nat) (all : List AM) : Option Files :=
  (serialize all).map fun t => Assoc.put fs p (.text t)

/-- `Store.write`, array_metadata_store.py:184-222. -/
def write (fs : Files) (p : Nat) (ms : List AM) : Option Files := (collect fs p ms).bind (flush fs p)

/-- `Store.read` of one process, array_metadata_store.py:252-282; the outer `none` is an exception, the inner one `None`. -/
def read (fs : Files) (p : Nat) : Option (Option (List AM)) :=
  match Assoc.get fs p with
  | none => some none
  | some f => (readFile f).map some

/-- `Store.read` of all processes, array_metadata_store.py:284-305; the order of the processes is that of the file system. -/
def readAll (fs : Files) : Option (Option (List (Nat × List AM))) :=
  match fs.mapM fun pf => (readFile pf.2).map fun ms => (pf.1, ms) with
  | none => none
  | some [] => some none
  | some r => some (some r)

/-! ### Validator, array_metadata_store.py:341-557 -/

/-- `{array_metadata.param_name: array_metadata for ...}`. -/
def cache (ms : List AM) : List (Name × AM) := ms.foldl (fun d m => Assoc.put d m.name m) []

/-- The class of a value, for `isinstance(a, type(b))`. -/
def tag : J → Nat
  | .null => 0
  | .num _ => 1
  | .str _ => 2
  | .arr _ => 3
  | .obj _ => 4
  | .am .. => 5

deriving instance DecidableEq for J, Js, Fs

/-- The comparison of one parameter in `Validator._validate_metadata`, array_metadata_store.py:502-556. -/
def sameMeta (ref m : AM) : Bool :=
  m.chunk == ref.chunk && m.write == ref.write && tag m.ext == tag ref.ext &&
    match ref.ext, m.ext with
    | .obj f, .obj g => decide (f.get kRandom = g.get kRandom)
    | _, _ => true

/-- The checks of one process against the reference, array_metadata_store.py:381-411 and 440-556. -/
def checkProcess (ref ms : List AM) : Bool :=
  ref.length == ms.length &&
  (Assoc.keys (cache ref)).all (fun n => decide (n ∈ Assoc.keys (cache ms))) &&
  (Assoc.keys (cache ms)).all (fun n => decide (n ∈ Assoc.keys (cache ref))) &&
  (cache ms).all fun nm => match Assoc.get (cache ref) nm.1 with
    | some r => sameMeta r nm.2
    | none => false

/-- `Validator.validate_all_array_metadatas`, array_metadata_store.py:344-418; `count` is the number of processes.  `false`:
raises. -/
def validate (count : Nat) : List (Nat × List AM) → Bool
  | [] => false
  | (p, ref) :: rest =>
    if ref.isEmpty then false
    else if rest.isEmpty then count == 1
    else ((p, ref) :: rest).all fun q => q.1 == p || checkProcess ref q.2

/-- `validate_all_array_metadatas`, array_metadata_store.py:559-575. -/
def validateAll (count : Nat) (fs : Files) : Bool :=
  match readAll fs with
  | none => false
  | some none => true
  | some (some r) => validate count r

/-! ### Readers -/

/-- A parameter of the tree to be saved: its name, and whether it is a `jax.Array`. -/
structure Param where
  name : Name
  isArray : Bool
  shape : Option (List Nat)
  deriving DecidableEq, Repr

/-- `update_param_info`, base_pytree_checkpoint_handler.py:1160-1170. -/
def updateParam (c : List (Name × AM)) (i : Param) : Option Param :=
  if !i.isArray then some i else (Assoc.get c i.name).map fun m => { i with shape := some m.write }

/-- `_get_param_infos_with_write_shape`, base_pytree_checkpoint_handler.py:1122-1173, on the primary host; the tree of
parameters is the list of its leaves. -/
def withWriteShape (fs : Files) (p : Nat) (is : List Param) : Option (List Param) :=
  match read fs p with
  | none => none
  | some none => if is.any (·.isArray) then none else some is
  | some (some ms) => is.mapM (updateParam (cache ms))

/-- The key implementation found for a parameter by `_wrap_random_key_data`, jax_array_handlers.py:903-917;
`None` and the empty string are no implementation (so are, in Python, zero and empty lists and objects). -/
def randomImpl (all : List (Nat × List AM)) (n : Name) : Option J :=
  match all with
  | [] => none
  | (_, ms) :: _ => match Assoc.get (cache ms) n with
    | some m => match m.ext with
      | .obj f => match f.get kRandom with
        | some .null => none
        | some (.str []) => none
        | v => v
      | _ => none
    | none => none

end Verif.ArrayStore
