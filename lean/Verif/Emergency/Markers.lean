/-!
# Talking to the replicator service through files

Models the part of `experimental/emergency/multi_tier_checkpointing/initialization.py` that hands a request to the replicator
service and takes its answer: `replicator.yaml`, `replicator.errors`, `replicator.failed`, `jax-init-info.txt` and the
`*.restore` markers in the local directory.

Simplifications: the local directory is a list of names and nodes; the service acts between polls, by an arbitrary function on
the directory, not within one; digits are ASCII digits; deleting an error file succeeds; the contents of `replicator.yaml` are a
given text. A poll is one second.
-/

namespace Verif.Emergency.Markers

abbrev Name := List Char

/-- What a symbolic link leads to. -/
inductive Target where
  | dir (id : Nat)
  | file
  | nothing
deriving DecidableEq, Repr

inductive Node where
  /-- A file with its text; `none` if it cannot be read. -/
  | file (text : Option (List Char))
  | link (target : Target)
  | dir (empty : Bool)
deriving DecidableEq, Repr

abbrev Dir := List (Name × Node)

inductive Err where
  | timeout
  | valueError
  | fatal (text : List Char)
  | osError
deriving DecidableEq, Repr

def look (d : Dir) (n : Name) : Option Node := (d.find? fun e => e.1 == n).map (·.2)

def del (d : Dir) (n : Name) : Dir := d.filter fun e => e.1 != n

def put (d : Dir) (n : Name) (x : Node) : Dir := (n, x) :: del d n

/-- `Path.is_file`, which follows links. -/
def Node.isFile : Node → Bool
  | .file _ => true
  | .link .file => true
  | _ => false

/-- `os.replace`: a directory replaces only nothing or an empty directory; anything else replaces anything but a directory. -/
def rename (d : Dir) (src dst : Name) : Except Err Dir :=
  match look d src with
  | none => .error .osError
  | some x =>
    match x, look d dst with
    | .dir _, some (.dir true) => .ok (put (del d src) dst x)
    | .dir _, some _ => .error .osError
    | _, some (.dir _) => .error .osError
    | _, _ => .ok (put (del d src) dst x)

/-! ## Names -/

def yamlName : Name := "replicator.yaml".toList
def tempName : Name := "replicator.yaml.tmp".toList
def errorsName : Name := "replicator.errors".toList
def failedName : Name := "replicator.failed".toList
def infoName : Name := "jax-init-info.txt".toList
def suffix : Name := ".restore".toList

/-- `\d+` and what follows. -/
def digits (l : List Char) : Option (List Char × List Char) :=
  match l.takeWhile Char.isDigit with
  | [] => none
  | s => some (s, l.dropWhile Char.isDigit)

/-- A literal and what follows. -/
def lit : List Char → List Char → Option (List Char)
  | [], l => some l
  | c :: p, x :: l => if c = x then lit p l else none
  | _ :: _, [] => none

/-- `-s(?P<step>\d+)-n\d+-w\d+\.restore`, initialization.py:51. -/
def matchTail (l : List Char) : Option (List Char) :=
  match lit "-s".toList l with
  | none => none
  | some l =>
    match digits l with
    | none => none
    | some (s, l) =>
      match lit "-n".toList l with
      | none => none
      | some l =>
        match digits l with
        | none => none
        | some (_, l) =>
          match lit "-w".toList l with
          | none => none
          | some l =>
            match digits l with
            | none => none
            | some (_, l) => if l = suffix then some s else none

/-- `.+` takes as much as it can: tries the prefixes from the longest, of length `k`, to the shortest, of length 1. -/
def tryPrefix (f : Name) : Nat → Option (List Char)
  | 0 => none
  | k + 1 =>
    match if '\n' ∈ f.take (k + 1) then none else matchTail (f.drop (k + 1)) with
    | some s => some s
    | none => tryPrefix f k

/-- `_extract_step`, initialization.py:752-761. -/
def extract (f : Name) : Option (List Char) := tryPrefix f f.length

/-- `int(step)`. -/
def toInt (s : List Char) : Nat := Nat.ofDigitChars 10 s 0

/-- `str(step)`. -/
def toStr (n : Nat) : Name := Nat.toDigits 10 n

/-! ## Error files -/

/-- `_process_replicator_error_file`, initialization.py:109-117, with `_read_replicator_error_file`, 84-95, and
`_cleanup_replicator_error_file`, 98-106. A directory or a link that leads nowhere is not read and not deleted;
a link to a file counts as unreadable. -/
def processError (d : Dir) (n : Name) : Option (List Char) × Dir :=
  match look d n with
  | some (.file text) => (text, del d n)
  | some (.link .file) => (none, del d n)
  | _ => (none, d)

/-- `_check_for_replicator_errors`, initialization.py:120-137. -/
def check (d : Dir) : Option (List Char) × Dir :=
  let (_, d) := processError d errorsName
  match processError d failedName with
  | (some [], d) => (none, d)
  | (fatal, d) => (fatal, d)

/-! ## Waiting -/

def exists? (d : Dir) (n : Name) : Bool :=
  match look d n with
  | none => false
  | some (.link .nothing) => false
  | some _ => true

/-- `_wait_for_replicator_file_to_disappear`, initialization.py:57-81: one element for every poll. -/
def waitGone (checkErrors : Bool) : List (Dir → Dir) → Dir → Except Err Unit × Dir
  | [], d => (.error .timeout, d)
  | e :: es, d =>
    if exists? (e d) yamlName then waitGone checkErrors es (e d)
    else if checkErrors then
      match check (e d) with
      | (some t, d) => (.error (.fatal t), d)
      | (none, d) => (.ok (), d)
    else (.ok (), e d)

/-- `text.split('\n')`: the first line and the others. -/
def splitNl : List Char → List Char × List (List Char)
  | [] => ([], [])
  | c :: l =>
    match splitNl l with
    | (a, r) => if c = '\n' then ([], a :: r) else (c :: a, r)

/-- The values of the file, `_retrieve_jax_init_info`, initialization.py:643-649, and the test for missing data,
`_initialize_jax_from_mtc`, 417-421. -/
def initInfo (text : List Char) : Except Err (List Char × List Char) :=
  match splitNl text with
  | (_, []) => .error .valueError
  | (a, b :: _) => if a = [] ∨ b = [] then .error .valueError else .ok (a, b)

/-- `_retrieve_jax_init_info`, initialization.py:609-656. -/
def waitInfo : List (Dir → Dir) → Dir → Except Err (List Char × List Char)
  | [], _ => .error .timeout
  | e :: es, d =>
    match look (e d) infoName with
    | some (.file (some text)) => initInfo text
    | some (.link .nothing) => waitInfo es (e d)
    | none => waitInfo es (e d)
    | some _ => .error .osError

/-! ## Markers -/

def insertName (x : Name × Node) : List (Name × Node) → List (Name × Node)
  | [] => [x]
  | y :: l => if x.1 ≤ y.1 then x :: y :: l else y :: insertName x l

def sortName : List (Name × Node) → List (Name × Node)
  | [] => []
  | x :: l => insertName x (sortName l)

/-- `sorted(local_checkpoint_directory.glob('*.restore'), key=lambda p: p.name)`, initialization.py:692-694. -/
def markers (d : Dir) : List (Name × Node) := sortName (d.filter fun e => suffix.isSuffixOf e.1)

/-- The markers of steps and those that say there is no checkpoint, initialization.py:709-718. -/
def classify : List (Name × Node) → Except Err (List (Nat × Name) × List Name)
  | [] => .ok ([], [])
  | (n, x) :: l =>
    match extract n with
    | none => .error .valueError
    | some s =>
      match classify l with
      | .error e => .error e
      | .ok (rs, ns) =>
        if s = ['0'] ∧ x.isFile = true then .ok (rs, n :: ns) else .ok ((toInt s, n) :: rs, ns)

/-- `max(restore_markers, key=...)`: the first of the largest. -/
def best : Nat × Name → List (Nat × Name) → Nat × Name
  | a, [] => a
  | a, b :: l => if a.1 < b.1 then best b l else best a l

/-- `_remove_restore_marker`, initialization.py:681-685: a directory cannot be unlinked. -/
def removeAll : List Name → Dir → Except Err Unit × Dir
  | [], d => (.ok (), d)
  | n :: l, d =>
    match look d n with
    | some (.dir _) => (.error .osError, d)
    | _ => removeAll l (del d n)

inductive Poll where
  | done
  | wait
  | raised (e : Err)
deriving DecidableEq, Repr

def finish : Except Err Unit × Dir → Poll × Dir
  | (.ok (), d) => (.done, d)
  | (.error e, d) => (.raised e, d)

/-- One round of `_block_and_process_restore_dir`, initialization.py:691-746. -/
def poll (d : Dir) : Poll × Dir :=
  let ms := markers d
  match check d with
  | (some t, d) => (.raised (.fatal t), d)
  | (none, d) =>
    match classify ms with
    | .error e => (.raised e, d)
    | .ok (r :: rs, ns) =>
      let b := best r rs
      match rename d b.2 (toStr b.1) with
      | .error e => (.raised e, d)
      | .ok d => finish (removeAll ((((r :: rs).map (·.2)).filter (· != b.2)) ++ ns) d)
    | .ok ([], n :: ns) => finish (removeAll (n :: ns) d)
    | .ok ([], []) => (.wait, d)

/-- `_block_and_process_restore_dir`, initialization.py:659-749. -/
def block : List (Dir → Dir) → Dir → Except Err Unit × Dir
  | [], d => (.error .timeout, d)
  | e :: es, d =>
    match poll (e d) with
    | (.done, d) => (.ok (), d)
    | (.raised x, d) => (.error x, d)
    | (.wait, d) => block es d

/-! ## The whole -/

/-- The default of the backup interval, initialization.py:474-475, and its validation, 206-214. -/
def interval (minutes steps : Option Int) : Except Err (Option Int × Option Int) :=
  match (if minutes = none ∧ steps = none then some 30 else minutes), steps with
  | none, none => .error .valueError
  | some _, some _ => .error .valueError
  | some m, none => if m ≤ 0 then .error .valueError else .ok (some m, none)
  | none, some s => if s ≤ 0 then .error .valueError else .ok (none, some s)

/-- `_create_replicator_file`, initialization.py:216-240: writes a temporary file and renames it. -/
def create (text : List Char) (d : Dir) : Except Err Dir :=
  rename (put d tempName (.file (some text))) tempName yamlName

/-- `initialize_multi_tier_checkpointing` on the standard path from the first wait on, initialization.py:541-606. -/
def initStandard (text : List Char) (e1 e2 e3 : List (Dir → Dir)) (d : Dir) : Except Err Unit × Dir :=
  match waitGone false e1 d with
  | (.error e, d) => (.error e, d)
  | (.ok (), d) =>
    match create text d with
    | .error e => (.error e, d)
    | .ok d =>
      match waitGone true e2 d with
      | (.error e, d) => (.error e, d)
      | (.ok (), d) => block e3 d

/-- The setup of a Pathways worker, initialization.py:359-385: a request that is already there is deleted first. -/
def initColocated (text : List Char) (e2 e3 : List (Dir → Dir)) (d : Dir) : Except Err Unit × Dir :=
  match look d yamlName with
  | some (.dir _) => (.error .osError, d)
  | _ =>
    match create text (del d yamlName) with
    | .error e => (.error e, del d yamlName)
    | .ok d =>
      match waitGone true e2 d with
      | (.error e, d) => (.error e, d)
      | (.ok (), d) => block e3 d

end Verif.Emergency.Markers
