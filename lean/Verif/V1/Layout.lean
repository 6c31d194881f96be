import Verif.V1.Registry

/-!
# Saving and loading named checkpointables (v1)

Models `experimental/v1/_src/layout/{checkpoint_layout,orbax_layout,orbax_v0_layout,registry}.py`, the
checks of `saving/validation.py` and `loading/validation.py`, and the part of `saving/execution.py` that
decides the contents of a checkpoint. Paths are relative to
`/repo/checkpoint/orbax/checkpoint/experimental/v1/_src/`.

A checkpoint directory is described by what these functions ask about it. Reading, writing and removing
files, several processes, time stamps and custom metadata are not modelled; that a save is visible as a
whole or not at all is C18-C20.
-/
namespace Verif.V1

/-- The item handlers recorded in the checkpoint metadata: a type string for each name, or one type string
for a checkpoint that is a single tree. (`_src/metadata/step_metadata_serialization.py` 56-63.) -/
inductive Items where
  | names (l : List (String × String))
  | single (t : String)
  | unknown
deriving DecidableEq, Repr

/-- An entry of a checkpoint directory: whether it is a directory, contains `_METADATA` (a tree), contains
`_CHECKPOINT_METADATA`, and the data in it. -/
structure Sub (D : Type) where
  name : String
  isDir : Bool
  tree : Bool
  ckpt : Bool
  data : D

/-- A path. `temporary` is `is_path_temporary`; `recorded` is the item handlers of `_CHECKPOINT_METADATA`, if
that file exists (an unreadable one is `unknown`); `rootTree` and `rootData` describe the directory as a
single tree; `parentMeta` says that the parent directory has a `_CHECKPOINT_METADATA`. `subs` is in the
order in which the directory is listed. -/
structure Dir (D : Type) where
  present : Bool
  isDir : Bool
  temporary : Bool
  indicator : Bool
  recorded : Option Items
  rootTree : Bool
  rootData : D
  parentMeta : Bool
  dirName : String
  subs : List (Sub D)

/-- The errors of loading and saving. -/
inductive LErr where
  | value
  | layout
  | key
  | handler (e : Err)
  | failed
deriving DecidableEq, Repr

variable {H V A D : Type} [DecidableEq H]

/-- `STATE_CHECKPOINTABLE_KEY`, `checkpoint_layout.py` line 28. -/
def stateKey : String := "state"

/-- `AUTO_CHECKPOINTABLE_KEY`, `checkpoint_layout.py` line 30. -/
def autoKey : String := "AUTO"

/-- `RESERVED_CHECKPOINTABLE_KEYS`, `checkpoint_layout.py` 34-37. -/
def reserved : List String := ["metrics", "AUTO"]

/-- `_existing_checkpointable_names`, `orbax_layout.py` 137-146. -/
def existing (d : Dir D) : List String :=
  (d.subs.filter fun s => s.isDir).map fun s => s.name

/-- `get_checkpointable_names`, `orbax_layout.py` 206-233. -/
def candidates (d : Dir D) : List String :=
  let names := (existing d).filter fun n => !reserved.contains n
  if names.contains stateKey then
    stateKey :: (names.filter fun n => n != stateKey).mergeSort (fun a b => decide (a ≤ b))
  else names.mergeSort (fun a b => decide (a ≤ b))

/-- The two layouts of Orbax checkpoints. -/
inductive Version where
  | v0
  | v1
deriving DecidableEq, Repr

/-- `checkpoint_version`, `orbax_layout.py` 63-68, used by `get_layout_class`, `layout/registry.py` 62-69. -/
def version (d : Dir D) : Version :=
  if d.indicator then .v1 else .v0

/-- `OrbaxLayout._validate_checkpointables`, `orbax_layout.py` 336-379. -/
def validV1 (d : Dir D) : Bool :=
  d.present && d.isDir && !d.temporary && d.recorded.isSome && d.indicator

/-- `OrbaxV0Layout._validate_checkpointables`, `orbax_v0_layout.py` 179-241. -/
def validV0 (d : Dir D) : Bool :=
  d.present && d.isDir && !d.temporary && !d.parentMeta &&
    (d.recorded.isSome || d.rootTree || !(d.subs.any fun s => s.ckpt))

/-- `get_checkpoint_layout`, `layout/registry.py` 92-125. -/
def layoutOf (d : Dir D) : Except LErr Version :=
  match version d with
  | .v1 => if validV1 d then .ok .v1 else .error .layout
  | .v0 => if validV0 d then .ok .v0 else .error .layout

/-- `is_orbax_checkpoint`, `layout/registry.py` 41-55. -/
def isOrbaxCheckpoint (d : Dir D) : Bool := validV1 d || validV0 d

/-- `_validate` of the two layouts, `orbax_layout.py` 287-334 and `orbax_v0_layout.py` 243-300. -/
def validTree (ver : Version) (d : Dir D) : Option String → Bool
  | some n => d.subs.any fun s => decide (s.name = n) && s.tree
  | none =>
    match ver with
    | .v1 => false
    | .v0 => d.rootTree

/-- `CheckpointLayoutResolver.resolve`, `layout/registry.py` 144-207. -/
def resolveTree (d : Dir D) (name : Option String) : Except LErr (Version × Option String) :=
  match layoutOf d with
  | .error e => .error e
  | .ok ver =>
    if name = some autoKey then
      match (candidates d).find? fun n => validTree ver d (some n) with
      | some n => .ok (ver, some n)
      | none => if ver = .v0 ∧ validTree ver d none then .ok (ver, none) else .error .layout
    else if validTree ver d name then .ok (ver, name) else .error .layout

/-- `_get_saved_handler_typestr`, `handlers/resolution.py` 188-197. -/
def savedTypestr (d : Dir D) (n : String) : Option String :=
  match d.recorded with
  | some (.names l) => (l.find? fun e => decide (e.1 = n)).map Prod.snd
  | _ => none

/-- `_get_saved_handler_typestr_direct_pytree`, `handlers/resolution.py` 200-206. -/
def directTypestr (d : Dir D) : Option String :=
  match d.recorded with
  | some (.single t) => some t
  | _ => none

/-- What a handler does with data: `save` writes data, and says whether it is a tree; `load` reads it,
given a template. -/
structure Codec (H V A D : Type) where
  enc : H → V → D
  isTree : H → V → Bool
  dec : H → D → Option A → Option V

/-- Loading one checkpointable with the handler found for it. -/
def loadOne (W : World H V A) (C : Codec H V A D) (r : Registry H) (d : Dir D) (n : String)
    (abs : Option A) : Except LErr V :=
  match resolveLoadOrState W r stateKey n abs (savedTypestr d n) with
  | .error e => .error (.handler e)
  | .ok h =>
    match d.subs.find? fun s => decide (s.name = n) with
    | none => .error .failed
    | some s =>
      match C.dec h s.data abs with
      | none => .error .failed
      | some v => .ok v

/-- Loading the requested checkpointables in order, stopping at the first failure. -/
def loadEach (W : World H V A) (C : Codec H V A D) (r : Registry H) (d : Dir D) :
    List (String × Option A) → Except LErr (List (String × V))
  | [] => .ok []
  | (n, a) :: rest =>
    match loadOne W C r d n a with
    | .error e => .error e
    | .ok v =>
      match loadEach W C r d rest with
      | .error e => .error e
      | .ok l => .ok ((n, v) :: l)

/-- What `load_checkpointables` loads, `orbax_layout.py` 461-470: everything not reserved, unless something
is requested. -/
def requested (d : Dir D) (req : List (String × Option A)) : List (String × Option A) :=
  if req.isEmpty then
    ((existing d).filter fun n => !reserved.contains n).map fun n => (n, none)
  else req

/-- `load_checkpointables` of the layouts, `orbax_layout.py` 441-507 and `orbax_v0_layout.py` 400-426 (a
single tree is refused). -/
def loadAll (W : World H V A) (C : Codec H V A D) (r : Registry H) (ver : Version) (d : Dir D)
    (req : List (String × Option A)) : Except LErr (List (String × V)) :=
  if ver = .v0 ∧ ((directTypestr d).isSome ∨ d.rootTree) then .error .layout
  else if (requested d req).any fun e => !(existing d).contains e.1 then .error .key
  else loadEach W C r d (requested d req)

/-- `validate_abstract_checkpointables`, `loading/validation.py` 55-88. -/
def validRequest (req : List (String × Option A)) : Bool :=
  req.all fun e => e.1 != "" && !reserved.contains e.1

/-- `load_checkpointables`, `loading/loading.py` 225-354. A missing request and an empty one are the
same. -/
def loadCheckpointables (W : World H V A) (C : Codec H V A D) (r : Registry H) (d : Dir D)
    (req : List (String × Option A)) : Except LErr (List (String × V)) :=
  if validRequest req then
    match layoutOf d with
    | .error e => .error e
    | .ok ver => loadAll W C r ver d req
  else .error .value

/-- `validate_state_checkpointable_name`, `loading/validation.py` 27-52. -/
def validStateName : Option String → Bool
  | none => true
  | some n => n == autoKey || (n != "" && !reserved.contains n)

/-- `load` of the layouts, `orbax_layout.py` 409-439 and `orbax_v0_layout.py` 350-398. -/
def loadTree (W : World H V A) (C : Codec H V A D) (r : Registry H) (ver : Version) (d : Dir D)
    (name : Option String) (abs : Option A) : Except LErr V :=
  match name, ver with
  | some n, _ => loadOne W C r d n abs
  | none, .v1 => .error .value
  | none, .v0 =>
    match d.recorded with
    | some (.names _) => .error .layout
    | _ =>
      match resolveLoadOrState W r stateKey d.dirName abs (directTypestr d) with
      | .error e => .error (.handler e)
      | .ok h =>
        match C.dec h d.rootData abs with
        | none => .error .failed
        | some v => .ok v

/-- `load`, `loading/loading.py` 108-222. -/
def load (W : World H V A) (C : Codec H V A D) (r : Registry H) (d : Dir D) (name : Option String)
    (abs : Option A) : Except LErr V :=
  if validStateName name then
    match resolveTree d name with
    | .error e => .error e
    | .ok (ver, n) => loadTree W C r ver d n abs
  else .error .value

/-! ## Saving -/

/-- `validate_save_checkpointables`, `saving/validation.py` 27-59. -/
def validSave (cs : List (String × V)) : Bool :=
  !cs.isEmpty && cs.all fun e => e.1 != "" && !reserved.contains e.1

/-- `get_handlers_for_save`, `handlers/resolution.py` 33-43. -/
def handlersFor (W : World H V A) (r : Registry H) :
    List (String × V) → Except LErr (List (String × H))
  | [] => .ok []
  | (n, v) :: rest =>
    match resolveSave W r n (some v) with
    | .error e => .error (.handler e)
    | .ok h =>
      match handlersFor W r rest with
      | .error e => .error e
      | .ok l => .ok ((n, h) :: l)

/-- The subdirectories written by `OrbaxLayout.save_checkpointables`, `orbax_layout.py` 509-548. -/
def written (C : Codec H V A D) (cs : List (String × V)) (hs : List (String × H)) : List (Sub D) :=
  List.zipWith (fun (c : String × V) (h : String × H) =>
    { name := c.1, isDir := true, tree := C.isTree h.2 c.2, ckpt := false, data := C.enc h.2 c.2 }) cs hs

/-- The committed checkpoint of `save_checkpointables_impl`, `saving/execution.py` 374-435: the
subdirectories, the indicator (`orbax_layout.py` 149-159) and the metadata with the type strings of the
handlers (`saving/execution.py` 140-145 and 182-200). -/
def save (W : World H V A) (C : Codec H V A D) (r : Registry H) (junk : D) (dirName : String)
    (parentMeta : Bool) (cs : List (String × V)) : Except LErr (Dir D) :=
  if validSave cs then
    match handlersFor W r cs with
    | .error e => .error e
    | .ok hs =>
      .ok { present := true, isDir := true, temporary := false, indicator := true,
            recorded := some (.names (hs.map fun e => (e.1, W.typestr e.2))), rootTree := false,
            rootData := junk, parentMeta := parentMeta, dirName := dirName, subs := written C cs hs }
  else .error .value

end Verif.V1
