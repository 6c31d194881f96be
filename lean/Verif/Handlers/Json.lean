/-!
# JSON checkpointables

Models `_src/handlers/json_checkpoint_handler.py` (version 0) and `experimental/v1/_src/handlers/json_handler.py`
(version 1), and what they rely on of Python's `json`.

Simplifications: the text of a document is its tree (`json.loads(json.dumps(j))` is `j` for a document, and a number
is written so that it is read back); an object pair list keeps the order of the text, and repeated names; a
floating-point number is its text; `write_text` is one step (it writes into a directory that is committed later, C18);
one directory is seen by all hosts.
-/

namespace Verif.Handlers.Json

/-- The key of a Python dictionary. -/
inductive Key where
  | str (s : String)
  | int (i : Int)
  | bool (b : Bool)
  | none
  /-- a floating-point number, by its `repr` -/
  | float (repr : String)
  /-- a tuple, an object -/
  | other
deriving DecidableEq, Repr

mutual
/-- A Python value. -/
inductive Val where
  | none
  | bool (b : Bool)
  | int (i : Int)
  | float (repr : String)
  | str (s : String)
  | list (xs : Seq)
  | tuple (xs : Seq)
  | dict (d : Dict)
  /-- an array, a set, an object -/
  | other
inductive Seq where
  | nil
  | cons (v : Val) (r : Seq)
/-- A dictionary in the order of insertion. -/
inductive Dict where
  | nil
  | cons (k : Key) (v : Val) (r : Dict)
end

mutual
/-- A JSON document. -/
inductive Doc where
  | null
  | bool (b : Bool)
  | int (i : Int)
  | float (repr : String)
  | str (s : String)
  | arr (xs : Docs)
  | obj (o : Obj)
inductive Docs where
  | nil
  | cons (j : Doc) (r : Docs)
inductive Obj where
  | nil
  | cons (s : String) (j : Doc) (r : Obj)
end

/-- How `json.dumps` writes a key (`json.encoder`, called at json_checkpoint_handler.py:60 and json_handler.py:104). A
tuple or an object is a `TypeError`. -/
def keyText : Key → Option String
  | .str s => some s
  | .int i => some (toString i)
  | .bool true => some "true"
  | .bool false => some "false"
  | .none => some "null"
  | .float r => some r
  | .other => none

mutual
/-- `json.dumps`, json_checkpoint_handler.py:60 and json_handler.py:104. `none` is a `TypeError`. -/
def dumps : Val → Option Doc
  | .none => some .null
  | .bool b => some (.bool b)
  | .int i => some (.int i)
  | .float r => some (.float r)
  | .str s => some (.str s)
  | .list xs => (dumpsSeq xs).map .arr
  | .tuple xs => (dumpsSeq xs).map .arr
  | .dict d => (dumpsDict d).map .obj
  | .other => none
def dumpsSeq : Seq → Option Docs
  | .nil => some .nil
  | .cons v r => (dumps v).bind fun j => (dumpsSeq r).map (.cons j)
def dumpsDict : Dict → Option Obj
  | .nil => some .nil
  | .cons k v r => (keyText k).bind fun s => (dumps v).bind fun j => (dumpsDict r).map (.cons s j)
end

/-- `d[k] = v`: in its place, or at the end. -/
def Dict.set : Dict → Key → Val → Dict
  | .nil, k, v => .cons k v .nil
  | .cons k' v' r, k, v => if k' = k then .cons k' v r else .cons k' v' (r.set k v)

mutual
/-- `json.loads`, json_checkpoint_handler.py:126 and json_handler.py:126. A name that occurs again replaces the value. -/
def loads : Doc → Val
  | .null => .none
  | .bool b => .bool b
  | .int i => .int i
  | .float r => .float r
  | .str s => .str s
  | .arr xs => .list (loadsSeq xs)
  | .obj o => .dict (loadsObj o .nil)
def loadsSeq : Docs → Seq
  | .nil => .nil
  | .cons j r => .cons (loads j) (loadsSeq r)
def loadsObj : Obj → Dict → Dict
  | .nil, acc => acc
  | .cons s j r, acc => loadsObj r (acc.set (.str s) (loads j))
end

/-- The files of a directory. -/
abbrev Dir := String → Option Doc

/-- `path.write_text(...)`. -/
def Dir.write (d : Dir) (name : String) (j : Doc) : Dir := fun n => if n = name then some j else d n

/-- `is_primary_host`, multihost.py:463-466. -/
def isPrimary (primary : Option Nat) (host : Nat) : Bool :=
  match primary with
  | none => true
  | some p => p == host

/-- `filename or default`, json_checkpoint_handler.py:53 and json_handler.py:38. -/
def nameOr (filename : Option String) (dflt : String) : String :=
  match filename with
  | none => dflt
  | some s => if s = "" then dflt else s

/-- The name of the file of a version 0 handler, json_checkpoint_handler.py:53. -/
def name0 (filename : Option String) : String := nameOr filename "metadata"

/-- `_get_supported_filenames`, json_handler.py:37-39. -/
def names1 (filename : Option String) : List String := [nameOr filename "data.json", "data.json", "metadata"]

/-- The name of the file a version 1 handler writes, json_handler.py:89. -/
def name1 (filename : Option String) : String := nameOr filename "data.json"

/-- `_save_fn`, json_checkpoint_handler.py:56-60, and `_background_save`, json_handler.py:91-104: what a host does to
the directory. `none` is a `TypeError`. -/
def saveFn (name : String) (primary : Option Nat) (host : Nat) (v : Val) (d : Dir) : Option Dir :=
  if isPrimary primary host then (dumps v).map (d.write name) else some d

/-- All hosts save, each its own value, in some order. -/
def saveAll (name : String) (primary : Option Nat) : List (Nat × Val) → Dir → Option Dir
  | [], d => some d
  | (h, v) :: r, d => (saveFn name primary h v d).bind (saveAll name primary r)

/-- `restore`, json_checkpoint_handler.py:97-126. `none` is a `FileNotFoundError`. -/
def restore0 (filename : Option String) (d : Dir) : Option Val := (d (name0 filename)).map loads

/-- The loop of `_background_load`, json_handler.py:118-130. -/
def loadFirst : List String → Dir → Option Val
  | [], _ => none
  | n :: ns, d =>
    match d n with
    | some j => some (loads j)
    | none => loadFirst ns d

/-- `load`, json_handler.py:132-137. -/
def load1 (filename : Option String) (d : Dir) : Option Val := loadFirst (names1 filename) d

/-- `is_handleable`, json_handler.py:142-147. -/
def isHandleable (v : Val) : Bool := ((dumps v).map loads).isSome

/-! ### Saving in the background -/

/-- The object given to `save`, the file system, and whether the coroutine of `async_save` has still to run
(json_checkpoint_handler.py:85-92: the coroutine holds the object, `CommitFutureAwaitingContractedSignals` runs it in
a thread; json_handler.py:106-113). -/
structure State where
  obj : Val
  pending : Bool
  failed : Bool
  dir : Dir

inductive Act where
  /-- the caller changes the object in place -/
  | mutate (v : Val)
  /-- the background thread runs -/
  | background

def step (name : String) (s : State) : Act → State
  | .mutate v => { s with obj := v }
  | .background =>
    if s.pending then
      match saveFn name (some 0) 0 s.obj s.dir with
      | some d => { s with pending := false, dir := d }
      | none => { s with pending := false, failed := true }
    else s

def run (name : String) (s : State) (acts : List Act) : State := acts.foldl (step name) s

/-- The state when `async_save` returns. -/
def started (v : Val) (d : Dir) : State := ⟨v, true, false, d⟩

end Verif.Handlers.Json
