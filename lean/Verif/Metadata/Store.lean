import Verif.Assoc

/-!
# Model of the checkpoint metadata stores

Models `/repo/checkpoint/orbax/checkpoint/_src/metadata/checkpoint.py:164-417`: `_MetadataStoreImpl`, `_BlockingMetadataStore` and
`_NonBlockingMetadataStore` with `enable_write=True`.  `json.dumps` followed by `json.loads` is the parameter `json`; `none` where
`dumps` raises.  Keys are strings.  `metadata_file.parent.name` is the parameter `okPath`.  Only the store touches the files.
-/

namespace Verif.Metadata

open Verif

abbrev Path := String

variable {V : Type}

/-- A dictionary. -/
abbrev Data (V : Type) := List (String × V)

/-- What is found at a path. -/
inductive File (V : Type) where
  | absent
  /-- Cannot be read or parsed: e.g. a write stopped half way. -/
  | torn
  | obj (d : Data V)
  /-- Another JSON value; is it true in Python? -/
  | other (truthy : Bool)
  deriving DecidableEq, Repr

/-- A call of `write` or `update`. -/
inductive Task (V : Type) where
  | write (path : Path) (metadata : Data V)
  | update (path : Path) (kwargs : Data V)
  deriving DecidableEq, Repr

def Task.path : Task V → Path
  | .write p _ => p
  | .update p _ => p

/-- `json.dumps` of a dictionary, and what will be read back. -/
def dump (json : V → Option V) : Data V → Option (Data V)
  | [] => some []
  | (k, v) :: d => match json v, dump json d with
    | some w, some e => some ((k, w) :: e)
    | _, _ => none

/-- `_MetadataStoreImpl.read`, checkpoint.py:195-236: the value, or `None`. -/
def readFile : File V → Option (File V)
  | .absent => none
  | .torn => none
  | f => some f

/-- `dict(self.read(metadata_file) or {})`, checkpoint.py:244; `none`: raises. -/
def readDict (f : File V) : Option (Data V) := match readFile f with
  | none => some []
  | some (.obj d) => some d
  | some (.other false) => some []
  | some _ => none

/-- The first half of a write: the path is checked and the text made, checkpoint.py:175-178, or the whole dictionary
computed first, checkpoint.py:243-247; `none`: raises. -/
def prepare (json : V → Option V) (okPath : Path → Bool) (fs : Path → File V) : Task V → Option (Data V)
  | .write p m => if okPath p then dump json m else none
  | .update p kw => match readDict (fs p) with
    | none => none
    | some d => if okPath p then dump json (kw.foldl (fun d kv => Assoc.put d kv.1 kv.2) d) else none

def set (fs : Path → File V) (p : Path) (f : File V) : Path → File V := fun q => if q = p then f else fs q

/-- `_BlockingMetadataStore.write` and `update`, checkpoint.py:287-313; `none`: raises before anything is written. -/
def blocking (json : V → Option V) (okPath : Path → Bool) (fs : Path → File V) (t : Task V) : Option (Path → File V) :=
  match prepare json okPath fs t with
  | none => none
  | some d => some (set fs t.path (.obj d))

/-- How a task ended. -/
inductive Result where
  | ok
  /-- It raised before the file was opened. -/
  | refused
  /-- It raised while the file was written. -/
  | broken
  deriving DecidableEq, Repr

/-- How a call of `wait_until_finished` ended. -/
inductive Wait where
  | returned
  | raised
  deriving DecidableEq, Repr

/-- The state of a `_NonBlockingMetadataStore`. -/
structure State (V : Type) where
  fs : Path → File V
  /-- The tasks submitted so far. -/
  tasks : List (Task V) := []
  /-- How the first of them ended. -/
  results : List Result := []
  /-- The write the worker is busy with. -/
  cur : Option (Path × Data V) := none
  /-- Is some thread in `wait_until_finished` (and holds the lock)? -/
  waiting : Bool := false
  /-- The number of futures taken from `_write_futures`. -/
  awaited : Nat := 0
  /-- The calls of `wait_until_finished` so far. -/
  log : List Wait := []

inductive Action (V : Type) where
  /-- `write` or `update`. -/
  | submit (t : Task V)
  /-- A step of the worker; does the disk comply? -/
  | work (ok : Bool)
  /-- `wait_until_finished` gets the lock. -/
  | beginWait
  /-- `wait_until_finished` looks at the next future. -/
  | await
  /-- The caller changes the dictionary passed to the `i`-th call. -/
  | mutate (i : Nat) (d : Data V)

/-- A step of the worker thread: `_write_and_log` and `_update_and_log`, checkpoint.py:333-350, 377-389. -/
def work (json : V → Option V) (okPath : Path → Bool) (s : State V) (ok : Bool) : State V := match s.cur with
  | some (p, d) =>
    if ok then { s with fs := set s.fs p (.obj d), cur := none, results := s.results ++ [.ok] }
    else { s with cur := none, results := s.results ++ [.broken] }
  | none => match s.tasks[s.results.length]? with
    | none => s
    | some t => match prepare json okPath s.fs t with
      | none => { s with results := s.results ++ [.refused] }
      | some d => { s with fs := set s.fs t.path .torn, cur := some (t.path, d) }

/-- The loop of `wait_until_finished`, checkpoint.py:417-427. -/
def await (s : State V) : State V :=
  if !s.waiting then s
  else if s.awaited = s.tasks.length then { s with waiting := false, log := s.log ++ [.returned] }
  else match s.results[s.awaited]? with
    | none => s
    | some .ok => { s with awaited := s.awaited + 1 }
    | some _ => { s with awaited := s.awaited + 1, waiting := false, log := s.log ++ [.raised] }

def mutateTask (d : Data V) : Task V → Task V
  | .write p _ => .write p d
  | .update p kw => .update p kw

/-- The store and its callers: checkpoint.py:352-427. -/
def act (json : V → Option V) (okPath : Path → Bool) (s : State V) : Action V → State V
  | .submit t => if s.waiting then s else { s with tasks := s.tasks ++ [t] }
  | .work ok => work json okPath s ok
  | .beginWait => { s with waiting := true }
  | .await => await s
  | .mutate i d => { s with tasks := s.tasks.modify i (mutateTask d) }

/-- A run. -/
def run (json : V → Option V) (okPath : Path → Bool) (fs : Path → File V) (acts : List (Action V)) : State V :=
  acts.foldl (act json okPath) { fs := fs }

end Verif.Metadata
