import Verif.V1.Layout

/-!
# Reading the metadata of a checkpoint (v1)

Models `metadata/loading.py` and the metadata functions of `layout/{orbax_layout,orbax_v0_layout}.py`
(paths relative to `/repo/checkpoint/orbax/checkpoint/experimental/v1/_src/`). Time stamps and custom
metadata, which are passed on as they were read, are not modelled; neither is the check of the leaves of
a tree's metadata (`validate_abstract_state`).
-/
namespace Verif.V1

variable {H V A D : Type} [DecidableEq H]

/-- Resolving the handlers of all the names, `get_handlers_for_load`, `handlers/resolution.py` 107-150. -/
def handlersForLoad (W : World H V A) (r : Registry H) (d : Dir D) :
    List String → Except LErr (List (String × H))
  | [] => .ok []
  | n :: rest =>
    match resolveLoadOrState W r stateKey n none (savedTypestr d n) with
    | .error e => .error (.handler e)
    | .ok h =>
      match handlersForLoad W r d rest with
      | .error e => .error e
      | .ok l => .ok ((n, h) :: l)

/-- `_get_checkpointables_metadata`, `orbax_layout.py` 550-590: `meta` is the handlers' `metadata`; where
it raises the entry is `None`. -/
def metaEach (rd : H → D → Option A) (d : Dir D) (hs : List (String × H)) :
    List (String × Option A) :=
  hs.map fun e => (e.1, match d.subs.find? fun s => decide (s.name = e.1) with
    | none => none
    | some s => rd e.2 s.data)

/-- `OrbaxLayout.checkpointables_metadata`, `orbax_layout.py` 235-267. -/
def layoutMetadata (W : World H V A) (rd : H → D → Option A) (r : Registry H) (d : Dir D) :
    Except LErr (List (String × Option A)) :=
  match handlersForLoad W r d (existing d) with
  | .error e => .error e
  | .ok hs => .ok ((metaEach rd d hs).filter fun e => e.1 != "metrics")

/-- `_is_direct_checkpoint`, `orbax_v0_layout.py` 105-121. -/
def isDirect (d : Dir D) : Bool := (directTypestr d).isSome || d.rootTree

/-- `checkpointables_metadata`, `metadata/loading.py` 119-169, with that of the layout
(`orbax_v0_layout.py` 123-147: a single tree is refused). -/
def checkpointablesMetadata (W : World H V A) (rd : H → D → Option A) (r : Registry H) (d : Dir D) :
    Except LErr (List (String × Option A)) :=
  match layoutOf d with
  | .error e => .error e
  | .ok ver =>
    if ver = .v0 ∧ isDirect d = true then .error .layout
    else match layoutMetadata W rd r d with
      | .error e => .error e
      | .ok l => if validRequest l then .ok l else .error .value

/-- `metadata` of the layouts, `orbax_layout.py` 269-285 and `orbax_v0_layout.py` 149-163. -/
def treeMetadata (W : World H V A) (rd : H → D → Option A) (r : Registry H) (ver : Version) (d : Dir D) :
    Option String → Except LErr (Option A)
  | some n =>
    match layoutMetadata W rd r d with
    | .error e => .error e
    | .ok l =>
      match l.find? fun e => decide (e.1 = n) with
      | none => .error .layout
      | some e => .ok e.2
  | none =>
    match ver with
    | .v1 => .error .value
    | .v0 =>
      if isDirect d then
        match resolveLoadOrState W r stateKey d.dirName none (directTypestr d) with
        | .error e => .error (.handler e)
        | .ok h =>
          match rd h d.rootData with
          | none => .error .failed
          | some a => .ok (some a)
      else .error .layout

/-- `metadata`, `metadata/loading.py` 39-116. -/
def metadata (W : World H V A) (rd : H → D → Option A) (r : Registry H) (d : Dir D)
    (name : Option String) : Except LErr (Option A) :=
  if validStateName name then
    match resolveTree d name with
    | .error e => .error e
    | .ok (ver, n) => treeMetadata W rd r ver d n
  else .error .value

end Verif.V1
