import Verif.PyTree.Model
import Verif.Trees.Transform

/-!
# Model of restoring a PyTree with transforms

Models `PyTreeCheckpointHandler.restore` with `transforms`, `/repo/checkpoint/orbax/checkpoint/_src/handlers/pytree_checkpoint_handler.py:116-433,
669-724, 802-915`, for checkpoints with a metadata file and without an aggregate file.  Exceptions are `none`.
Restore arguments are the restore type (`RArg`).  Not modelled: `legacy_transform_fn`, checkpoints without a metadata file or with an aggregate
file, limits of concurrent bytes, logging.
-/

namespace Verif.PyTree

open Verif Verif.Trees Verif.TreeMetadata

/-- A leaf of the restored tree: a value, or the metadata of a parameter that was not read (pytree_checkpoint_handler.py:719-723). -/
inductive Got (V : Type) where
  | value (v : V)
  | entry (e : P)
  deriving DecidableEq

/-- `Transform` and `RestoreTransform`, transform_utils.py:34-154; `isRestore`: `isinstance(transform, RestoreTransform)`.
`inputs` is `multi_value_fn_input_args`. -/
structure RRule (V : Type) where
  originalKey : Option Name := none
  useFallback : Bool := false
  valueFn : Option (Tree (Got V) → Tree (Got V)) := none
  multiFn : Option (Name → Tree (Got V) → RArg → Tree (Got V)) := none
  inputs : Option (List (Name × RArg)) := none
  isRestore : Bool := true

/-- `_keystr`, pytree_checkpoint_handler.py:116-117. -/
def keystr (n : List Name) : Name := join ['/'] n

/-- The loop over `multi_value_fn_input_args`, pytree_checkpoint_handler.py:153-158. -/
def findInput (fm : FullMatch) (key : Name) : List (Name × RArg) → Option RArg
  | [] => none
  | (regex, a) :: l => if (fm regex key).isSome then some a else findInput fm key l

/-- The loop over the keys of the item, pytree_checkpoint_handler.py:162-174.  Outer `none`: `KeyError`. -/
def findOutput {α} (fm : FullMatch) (args : List (List Name × Tree RArg)) (pattern : Name) (originalKey : Option Name) (key : Name) :
    List (List Name × Tree α) → Option (Option (Tree RArg))
  | [] => some none
  | (out, _) :: l => match fm pattern (keystr out) with
    | none => findOutput fm args pattern originalKey key l
    | some expand =>
      let k := match originalKey with
        | none => keystr out
        | some k => expand k
      if k = key then (Assoc.get args out).map some else findOutput fm args pattern originalKey key l

/-- `_find_matching_input_args`, pytree_checkpoint_handler.py:120-175. -/
def findArgs {α V} (fm : FullMatch) (item : List (List Name × Tree α)) (args : List (List Name × Tree RArg)) (key : Name) :
    List (List Name × Tree (RRule V)) → Option (Option (Tree RArg))
  | [] => some none
  -- a flat dictionary without empty nodes has leaves only
  | (_, .node _ _) :: rs => findArgs fm item args key rs
  | (pattern, .leaf r) :: rs =>
    if r.multiFn.isSome then
      if !r.isRestore then none
      else match r.inputs with
        | none => none
        | some ins => match findInput fm key ins with
          | some a => some (some (.leaf a))
          | none => findArgs fm item args key rs
    else if !r.useFallback then
      match findOutput fm args (keystr pattern) r.originalKey key item with
      | none => none
      | some (some a) => some (some a)
      | some none => findArgs fm item args key rs
    else findArgs fm item args key rs

/-- `_has_use_fallback_transform`, pytree_checkpoint_handler.py:178-186. -/
def hasFallback {V} (fm : FullMatch) (key : Name) (rules : List (List Name × Tree (RRule V))) : Bool :=
  rules.any fun x => match x.2 with
    | .leaf r => (fm (keystr x.1) key).isSome && r.useFallback
    | .node _ _ => false

/-- `if maybe_input_args`: restore arguments are true, empty nodes (of the item) are false. -/
def truthyArgs : Option (Tree RArg) → Bool
  | none => false
  | some (.leaf _) => true
  | some (.node (.custom _) _) => true
  | some (.node _ f) => !f.isEmpty

/-- The decision about one parameter of the checkpoint, pytree_checkpoint_handler.py:314-359: outer `none` is an exception, `some none`: the
parameter is skipped, `some (some a)`: it is read with the arguments `a`. -/
def plan {α V} (fm : FullMatch) (dto : Bool) (item : List (List Name × Tree α)) (args : List (List Name × Tree RArg))
    (rules : List (List Name × Tree (RRule V))) (key : List Name) : Option (Option (Tree RArg)) :=
  match findArgs fm item args (keystr key) rules with
  | none => none
  | some found =>
    if truthyArgs found then some found
    else if (Assoc.get item key).isSome then
      if hasFallback fm (keystr key) rules then
        if dto then some none else (Assoc.get args key).map some
      else
        if dto then (Assoc.get args key).map some else some none
    else some none

/-- One parameter, with the arguments: `batched_serialization_requests`, base_pytree_checkpoint_handler.py:107-157, the type handler, and
`_maybe_deserialize`, pytree_checkpoint_handler.py:713-723. -/
def readNamed {V D} (C : Codec V D) (params : List (Name × D)) (key : List Name) (e : P) (a : Tree RArg) : Option (Got V) :=
  match e with
  | .entry m =>
    if m.skip then some (.entry e)
    else match a with
      | .leaf r =>
        if isEmptyType (r.getD m.type) then some (.entry e)
        else do
          let d ← Assoc.get params (join ['.'] key)
          let v ← C.read (r.getD m.type) d
          return .value v
      | .node _ f => if f.isEmpty then some (.entry e) else none
  | _ => none

/-- The value of one entry of the checkpoint's structure in the restored tree. -/
def loadLeaf {α V D} (C : Codec V D) (params : List (Name × D)) (fm : FullMatch) (dto : Bool) (item : List (List Name × Tree α))
    (args : List (List Name × Tree RArg)) (rules : List (List Name × Tree (RRule V))) (key : List Name) : Tree P → Option (Tree (Got V))
  | .leaf e => match plan fm dto item args rules key with
    | none => none
    | some none => some (.leaf (.entry e))
    | some (some a) => (readNamed C params key e a).map .leaf
  | .node k _ => (plan fm dto item args rules key).map fun _ => .node k .nil

/-- `_get_restore_parameters` with transforms, pytree_checkpoint_handler.py:311-370, and `_maybe_deserialize`, 679-724. -/
def loadTree {α V D} (C : Codec V D) (params : List (Name × D)) (fm : FullMatch) (dto : Bool) (structure_ : Tree P) (item : Tree α) (args : Tree RArg)
    (rules : Tree (RRule V)) : Option (Tree (Got V)) := do
  let d ← (toFlat true structure_).mapM fun (key, m) =>
    (loadLeaf C params fm dto (toFlat true item) (toFlat true args) (toFlat false rules) key m).map fun v => (key, v)
  fromFlatTarget d structure_

/-- `_maybe_wrap_transform`, pytree_checkpoint_handler.py:378-391.  A key without restore arguments is a `KeyError` in the code, and has the
default here. -/
def RRule.wrap {V} (args : List (Name × Tree RArg)) (r : RRule V) : Rule (Got V) where
  originalKey := r.originalKey
  useFallback := r.useFallback
  valueFn := r.valueFn
  multiFn := r.multiFn.map fun m key tree => m key tree ((Assoc.get args key).elim none argOf)

/-- `restore` with transforms, pytree_checkpoint_handler.py:802-915; `_transform_checkpoint`, 396-433. -/
def restoreT {V D} (C : Codec V D) (o : Options) (ck : Ckpt D) (fm : FullMatch) (dto : Bool) (item : Option (Tree V)) (args : Option (Tree RArg))
    (rules : Tree (RRule V)) : Option (Tree (Got V)) := do
  let m ← TreeMeta.fromJson o.classes false ck.metadata
  let vmt ← m.asNested
  let i ← item
  let a ← args
  let t ← loadTree C ck.params fm dto vmt i a rules
  applyTransformations fm dto t (Tree.map (RRule.wrap (toFlatSep ['/'] false a)) rules) (Tree.map Got.value i)

end Verif.PyTree
