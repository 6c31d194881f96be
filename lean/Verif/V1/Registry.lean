/-!
# Handler registration and resolution (version 1 API)

Models `checkpoint/orbax/checkpoint/experimental/v1/_src/handlers/registration.py` and
`handlers/resolution.py` (line numbers refer to the former unless stated otherwise).

Handler classes are the elements of an arbitrary type `H`. What the code asks of a class - its type
string, whether it can be constructed without arguments, whether its instances accept a value or a
template - is a `World`. Instances are identified with their class, and are taken to be truthy.
Logging and error messages are not modelled.
-/
namespace Verif.V1

/-- What is asked of handler classes and values. -/
structure World (H V A : Type) where
  /-- `handler_types.typestr`, `handlers/types.py` 331-333. -/
  typestr : H → String
  /-- Whether `handler_type()` succeeds. -/
  constructible : H → Bool
  /-- `is_handleable`. -/
  canSave : H → V → Bool
  /-- `is_abstract_handleable` (the answer `None` counts as false, as in the code). -/
  canLoad : H → A → Bool
  /-- `isinstance(checkpointable, StatefulCheckpointable)`. -/
  statefulV : V → Bool
  /-- `isinstance(abstract_checkpointable, StatefulCheckpointable)`. -/
  statefulA : A → Bool

/-- The exceptions. -/
inductive Err where
  | alreadyExists
  | noEntry
  | notConstructible
  | value
deriving DecidableEq, Repr

/-- `_DefaultCheckpointableHandlerRegistry`, lines 202-215: the entries in the order of registration, and
the secondary type strings (`get_secondary_typestrs`, lines 321-326: none by default). -/
structure Registry (H : Type) where
  entries : List (H × Option String)
  secondary : H → List String

variable {H V A : Type} [DecidableEq H]

/-- An empty registry. -/
def Registry.empty : Registry H := ⟨[], fun _ => []⟩

/-- `has`, lines 297-313. -/
def Registry.has (r : Registry H) (name : String) : Bool :=
  r.entries.any fun e => decide (e.2 = some name)

/-- `get`, lines 272-295. -/
def Registry.get (r : Registry H) (name : String) : Option H :=
  (r.entries.find? fun e => decide (e.2 = some name)).map Prod.fst

/-- The condition under which `add` refuses, lines 253-266: a given non-empty name that is taken, or
otherwise a class that is registered under any name. -/
def Registry.taken (r : Registry H) (h : H) (name : Option String) : Bool :=
  match name with
  | some n => if n ≠ "" then r.has n else r.entries.any fun e => decide (e.1 = h)
  | none => r.entries.any fun e => decide (e.1 = h)

/-- `add`, lines 217-270. -/
def Registry.add (r : Registry H) (h : H) (name : Option String) (sec : Option (List String)) :
    Except Err (Registry H) :=
  if r.taken h name then .error .alreadyExists
  else .ok ⟨r.entries ++ [(h, name)], match sec with
    | some s => fun x => if x = h then s else r.secondary x
    | none => r.secondary⟩

/-- `add_all`, lines 75-88. -/
def addAll (r : Registry H) (sec : H → List String) : List (H × Option String) → Except Err (Registry H)
  | [] => .ok r
  | (h, name) :: rest =>
    match r.add h name (some (sec h)) with
    | .error e => .error e
    | .ok r' => addAll r' sec rest

/-- `local_registry`, lines 407-449. -/
def localRegistry (globalReg : Registry H) (other : Option (Registry H)) (includeGlobal : Bool) :
    Except Err (Registry H) :=
  let start : Except Err (Registry H) :=
    if includeGlobal then addAll Registry.empty globalReg.secondary globalReg.entries
    else .ok Registry.empty
  match start, other with
  | .error e, _ => .error e
  | .ok r, none => .ok r
  | .ok r, some o => addAll r o.secondary o.entries

/-- `_construct_handler_instance`, lines 502-516. -/
def construct (W : World H V A) (h : H) : Except Err H :=
  if W.constructible h then .ok h else .error .notConstructible

/-- The handlers that are not scoped to a name and accept the value: `_get_possible_handlers`, lines
519-546. Every registered class is constructed first. -/
def possible (W : World H V A) (r : Registry H) (ok : H → Bool) : Except Err (List H) :=
  if r.entries.all fun e => W.constructible e.1 then
    .ok ((r.entries.filter fun e => e.2.isNone && ok e.1).map Prod.fst)
  else .error .notConstructible

/-- `resolve_handler_for_save`, lines 559-631. `none` is the Python value `None`. -/
def resolveSave (W : World H V A) (r : Registry H) (name : String) : Option V → Except Err H
  | none => .error .value
  | some v =>
    match possible W r (fun h => W.canSave h v) with
    | .error e => .error e
    | .ok hs =>
      match W.statefulV v, hs.getLast? with
      | true, some h => .ok h
      | _, last =>
        match r.get name with
        | some h => construct W h
        | none =>
          match last with
          | some h => .ok h
          | none => .error .noEntry

/-- The search by type string, lines 683-690: the latest entry whose class has the type string, as its own
or as a secondary one. -/
def byTypestr (W : World H V A) (r : Registry H) (ts : String) : Option H :=
  (r.entries.reverse.find? fun e => decide (W.typestr e.1 = ts) || (r.secondary e.1).contains ts).map
    Prod.fst

/-- Constructing the result of a search. -/
def constructOpt (W : World H V A) : Option H → Except Err (Option H)
  | none => .ok none
  | some h => if W.constructible h then .ok (some h) else .error .notConstructible

/-- The decision of `resolve_handler_for_load`, lines 700-743, once the handler registered for the name
and the one found by the type string are known. -/
def decideLoad (W : World H V A) (r : Registry H) (explicit resolved : Option H) :
    Option A → Except Err H
  | none =>
    match explicit, resolved with
    | some h, _ => .ok h
    | none, some h => .ok h
    | none, none => .error .noEntry
  | some a =>
    if W.statefulA a && resolved.any (fun h => W.canLoad h a) then
      match resolved with
      | some h => .ok h
      | none => .error .noEntry
    else if explicit.any (fun h => W.canLoad h a) then
      match explicit with
      | some h => .ok h
      | none => .error .noEntry
    else if resolved.any (fun h => W.canLoad h a) then
      match resolved with
      | some h => .ok h
      | none => .error .noEntry
    else
      match possible W r (fun h => W.canLoad h a) with
      | .error e => .error e
      | .ok hs =>
        match hs.getLast?, explicit with
        | some h, _ => .ok h
        | none, some h => .ok h
        | none, none => .error .noEntry

/-- `resolve_handler_for_load`, lines 634-743. -/
def resolveLoad (W : World H V A) (r : Registry H) (name : String) (abs : Option A)
    (ts : Option String) : Except Err H :=
  match constructOpt W (r.get name) with
  | .error e => .error e
  | .ok explicit =>
    match constructOpt W (match ts with
      | some t => if t ≠ "" then byTypestr W r t else none
      | none => none) with
    | .error e => .error e
    | .ok resolved => decideLoad W r explicit resolved abs

/-- `_resolve_single_handler_for_load`, `handlers/resolution.py` 46-104: without an entry, the handler
registered for the name of the state. -/
def resolveLoadOrState (W : World H V A) (r : Registry H) (stateKey name : String) (abs : Option A)
    (ts : Option String) : Except Err H :=
  match resolveLoad W r name abs ts with
  | .ok h => .ok h
  | .error .noEntry =>
    match r.get stateKey with
    | some h => construct W h
    | none => .error .noEntry
  | .error e => .error e

end Verif.V1
