import Verif.Metadata.TreeMeta
import Verif.Trees.Diff
import Verif.Trees.Trim

/-!
# Model of the PyTree checkpoint handler

Models saving and restoring in `/repo/checkpoint/orbax/checkpoint/_src/handlers/base_pytree_checkpoint_handler.py:98-230, 516-588, 601-1106`,
without rich types (the default).  Exceptions are `none`.
Values are abstract; what the type handlers do is a `Codec`.  The parameters are a map from parameter names to data, whatever the storage format.
Not modelled: several processes, partial saves, the shape and data type that strict `ArrayRestoreArgs` take from `item`, limits of concurrent
bytes, logging, the array metadata store, OCDBT merging.
-/

namespace Verif.PyTree

open Verif Verif.Trees Verif.TreeMetadata

/-! ### Type handlers -/

/-- The type handlers: `registry.get(type(v)).typestr()` (`none`: no handler), what the handler of a value writes for it, and what the handler
with a type string reads from data (`none`: an exception).  type_handler_registry.py:31-51; types.py. -/
structure Codec (V D : Type) where
  typestr : V → Option Name
  write : V → D
  read : Name → D → Option V

def tList : Name := ['L', 'i', 's', 't']
def tTuple : Name := ['T', 'u', 'p', 'l', 'e']
def tDict : Name := ['D', 'i', 'c', 't']

/-- `get_param_typestr` of an empty node, type_handler_registry.py:31-51; `get_empty_value_typestr`, empty_values.py:58-81.  An empty named
tuple and an empty object of a registered class have no type handler. -/
def emptyTypestr : Kind → Name
  | .list => tList
  | .tuple => tTuple
  | .dict => tDict
  | .none => tNone
  | .named _ => tNone
  | .custom _ => tNone

/-- `get_empty_value_from_typestr`, empty_values.py:106-132; `none`: `ValueError`. -/
def emptyValue {β} (t : Name) : Option (Tree β) :=
  if t = tList then some emptyList
  else if t = tNamedTuple then some .pyNone
  else if t = tTuple then some emptyTuple
  else if t = tDict then some emptyDict
  else if t = tNone then some .pyNone
  else none

/-! ### Saving -/

mutual
/-- `_get_param_infos`, base_pytree_checkpoint_handler.py:520-587: the type strings.  The name of a parameter is that of its path. -/
def Tree.infos {V D} (C : Codec V D) : Tree V → Tree Info
  | .leaf v => .leaf ⟨some ((C.typestr v).getD tNone), none⟩
  | .node k f => if f.isEmpty then .leaf ⟨some (emptyTypestr k), none⟩ else .node k (Forest.infos C f)
def Forest.infos {V D} (C : Codec V D) : Forest V → Forest Info
  | .nil => .nil
  | .cons k t r => .cons k (Tree.infos C t) (Forest.infos C r)
end

/-- `batched_serialization_requests` for saving, base_pytree_checkpoint_handler.py:98-168: what is written under which name; `none`: a
value has no type handler.  The grouping by type handlers is left out: the order of the writes is not fixed anyway. -/
def writes {V D} (C : Codec V D) : List (List Key × Tree V) → Option (List (Name × D))
  | [] => some []
  | (p, .leaf v) :: l => match C.typestr v with
    | none => none
    | some _ => (writes C l).map fun r => (paramName p, C.write v) :: r
  | (_, .node _ _) :: l => writes C l

/-- `not jax.tree.leaves(item) and not item`, base_pytree_checkpoint_handler.py:642-645. -/
def refused {V} : Tree V → Bool
  | .leaf _ => false
  | .node (.custom _) _ => false
  | .node _ f => f.isEmpty

/-- The settings that end up in the metadata. -/
structure Options where
  printable : Char → Bool
  classes : Classes
  ocdbt : Option Bool
  zarr3 : Bool
  store : Bool
  custom : Py

/-- `async_save`, base_pytree_checkpoint_handler.py:601-768, and `_write_metadata_after_commits`, 1217-1273: the metadata file, and the writes
of parameters. -/
def save {V D} (C : Codec V D) (o : Options) (t : Tree V) : Option (Py × List (Name × D)) :=
  if refused t then none
  else do
    let ws ← writes C (t.flat true)
    let infos := Tree.infos C t
    let m ← TreeMeta.build o.printable infos (infos.flat true).length o.ocdbt o.zarr3 o.custom o.store false
    let j ← m.toJson o.classes
    return (j, ws)

/-- A checkpoint: the metadata file and the parameters. -/
structure Ckpt (D : Type) where
  metadata : Py
  params : List (Name × D)

/-- The parameters after the writes. -/
def putAll {D} (ws : List (Name × D)) : List (Name × D) := ws.foldl (fun d w => Assoc.put d w.1 w.2) []

/-- What a save may leave behind: the writes are done concurrently, in any order. -/
def Saved {V D} (C : Codec V D) (o : Options) (t : Tree V) (ck : Ckpt D) : Prop :=
  ∃ j ws ws', save C o t = some (j, ws) ∧ ws'.Perm ws ∧ ck = ⟨j, putAll ws'⟩

/-! ### Restoring -/

/-- A `RestoreArgs`: the `restore_type`, as a type string. -/
abbrev RArg := Option Name

/-- `leaf_args if isinstance(leaf_args, RestoreArgs) else RestoreArgs()`. -/
def argOf : Tree RArg → RArg
  | .leaf a => a
  | .node _ _ => none

mutual
/-- `_fill_missing_save_or_restore_args`, base_pytree_checkpoint_handler.py:193-230; `none`: the structures do not match. -/
def Tree.fillArgs {α} : Tree α → Tree RArg → Option (Tree RArg)
  | .leaf _, a => some (.leaf (argOf a))
  | .node k f, a =>
    if f.isEmpty then some (.leaf (argOf a))
    else match a with
      | .leaf _ => none
      | .node k' g => if k = k' then (Forest.fillArgs f g).map (.node k) else none
def Forest.fillArgs {α} : Forest α → Forest RArg → Option (Forest RArg)
  | .nil, g => match g with
    | .nil => some .nil
    | .cons _ _ _ => none
  | .cons k t r, g => match g with
    | .nil => none
    | .cons k' u s =>
      if k = k' then do
        let t' ← Tree.fillArgs t u
        let r' ← Forest.fillArgs r s
        return .cons k t' r'
      else none
end

/-- The restore arguments, filled in; without any, every leaf has the default, base_pytree_checkpoint_handler.py:224-228. -/
def allArgs {α} (item : Tree α) (args : Option (Tree RArg)) : Option (Tree RArg) :=
  Tree.fillArgs item (args.getD (item.relabel (fun _ => none) []))

/-- One leaf or empty node of the metadata, `batched_serialization_requests` for restoring, base_pytree_checkpoint_handler.py:107-157, and the
type handler.  `m` is the metadata (a leaf `none` is a placeholder) and `a` the arguments at the path `p`.  `some none`: nothing is read. -/
def readLeaf {V D} (C : Codec V D) (params : List (Name × D)) (p : List Key) (m : Tree (Option P)) (a : Option (Tree RArg)) : Option (Option V) :=
  match m with
  | .leaf none => some none
  | .leaf (some (.entry e)) =>
    if e.skip then some none
    else match a with
      | some (.leaf r) =>
        if isEmptyType (r.getD e.type) then some none
        else do
          let d ← Assoc.get params (paramName p)
          let v ← C.read (r.getD e.type) d
          return some v
      | some (.node _ f) => if f.isEmpty then some none else none
      | none => none
  | .leaf (some _) => none
  | .node _ _ => match a with
    | some (.node _ f) => if f.isEmpty then some none else none
    | _ => none

/-- `flat_restored` after reading, base_pytree_checkpoint_handler.py:806-821.  The order of type handlers is left out. -/
def readAll {V D} (C : Codec V D) (params : List (Name × D)) (args : Tree RArg) :
    List (List Key × Tree (Option P)) → List (List Name × Tree (Option V)) → Option (List (List Name × Tree (Option V)))
  | [], d => some d
  | (p, m) :: l, d => match readLeaf C params p m (args.at_ p) with
    | none => none
    | some none => readAll C params args l d
    | some (some v) => readAll C params args l (Assoc.put d (strPath p) (.leaf (some v)))

/-- What is put in for a leaf of the metadata that was not read, base_pytree_checkpoint_handler.py:823-831. -/
def fillIn {V} : Tree (Option P) → Option (Tree (Option V))
  | .leaf none => some (.leaf none)
  | .leaf (some (.entry e)) => emptyValue e.type
  | _ => none

def fillAll {V} : List (List Name × Tree (Option P)) → List (List Name × Tree (Option V)) → Option (List (List Name × Tree (Option V)))
  | [], d => some d
  | (n, m) :: l, d => match Assoc.get d n with
    | some _ => fillAll l d
    | none => match fillIn m with
      | none => none
      | some v => fillAll l (Assoc.put d n v)

/-- `_maybe_deserialize`, base_pytree_checkpoint_handler.py:793-836.  A leaf `none` of the result is a placeholder. -/
def maybeDeserialize {α V D} (C : Codec V D) (params : List (Name × D)) (item : Tree α) (vmt : Tree (Option P)) (args : Tree RArg) :
    Option (Tree (Option V)) := do
  let d ← readAll C params args (vmt.flat true) []
  let d ← fillAll (toFlat false vmt) d
  fromFlatTarget d item

/-- The end of `restore`, base_pytree_checkpoint_handler.py:1068-1095. -/
def restoreWith {α V D} (C : Codec V D) (params : List (Name × D)) (item : Tree α) (vmt : Tree (Option P)) (args : Option (Tree RArg)) :
    Option (Tree (Option V)) := do
  let a ← allArgs item args
  let a ← serialize true a
  let vmt ← deserialize false vmt item
  let a ← deserialize false a item
  maybeDeserialize C params item vmt a

mutual
/-- `jax.tree.map(g, t)`. -/
def Tree.map {α β} (g : α → β) : Tree α → Tree β
  | .leaf a => .leaf (g a)
  | .node k f => .node k (Forest.map g f)
def Forest.map {α β} (g : α → β) : Forest α → Forest β
  | .nil => .nil
  | .cons k t r => .cons k (Tree.map g t) (Forest.map g r)
end

/-- `is_empty_container`, empty_values.py:33-37, of an empty node: not `None`, and not an object of a registered class. -/
def isContainer : Kind → Bool
  | .none => false
  | .custom _ => false
  | _ => true

mutual
/-- Empty containers replaced by zeros, base_pytree_checkpoint_handler.py:847-856.  Leaves do not matter: they are `()`. -/
def Tree.zeros {α} : Tree α → Tree Unit
  | .leaf _ => .leaf ()
  | .node k f => if f.isEmpty then (if isContainer k then .leaf () else .node k .nil) else .node k (Forest.zeros f)
def Forest.zeros {α} : Forest α → Forest Unit
  | .nil => .nil
  | .cons k t r => .cons k (Tree.zeros t) (Forest.zeros r)
end

/-- `_partial_restore_with_omission`, base_pytree_checkpoint_handler.py:838-867. -/
def omission {α} (item serialized : Tree α) (vmt : Py) (args : Option (Tree RArg)) : Option (Tree (Option P) × Option (Tree RArg)) := do
  let (p, _) ← trimParts false false (Tree.zeros serialized) vmt
  let u ← p.unsafe
  let args ← match args with
    | none => some none
    | some a => (trimFull false item a).map fun x => some x.1
  return (u, args)

mutual
/-- A tree for `tree_difference` with `is_leaf=is_empty_or_leaf`: its empty nodes are leaves; a leaf is `true` if it is a placeholder. -/
def Tree.clip {α} (ph : α → Bool) : Tree α → Tree Bool
  | .leaf a => .leaf (ph a)
  | .node k f => if f.isEmpty then .leaf false else .node k (Forest.clip ph f)
def Forest.clip {α} (ph : α → Bool) : Forest α → Forest Bool
  | .nil => .nil
  | .cons k t r => .cons k (Tree.clip ph t) (Forest.clip ph r)
end

/-- `tree_difference(serialized_item, value_metadata_tree, is_leaf=is_empty_or_leaf, leaves_equal=lambda a, b: True)`,
base_pytree_checkpoint_handler.py:874-880, 1054-1059; structure_utils.py:56-182.  Only where an empty container meets one that is not empty the
summary differs from the code's (there is one in both). -/
def difference {α} (serialized : Tree (Option α)) (vmt : Py) : Option (DTree Bool) :=
  Tree.diff (fun _ _ => true) (Tree.clip Option.isNone serialized) (Tree.clip (fun _ => false) vmt)

/-- `parent[keypath[-1]] = PLACEHOLDER`, base_pytree_checkpoint_handler.py:887-891; `none`: an exception (a list is indexed by a string). -/
def putPlaceholder (t : Tree (Option P)) : List Key → Option (Tree (Option P))
  | [] => none
  | [k] => match t with
    | .node .dict f => some (.node .dict (f.put (.dict (.str k.str)) (.leaf none)))
    | _ => none
  | k :: p => match t with
    | .node .dict f => do
      let c ← f.get (.dict (.str k.str))
      let c' ← putPlaceholder c p
      return .node .dict (f.put (.dict (.str k.str)) c')
    | _ => none

/-- The loop over the differences, base_pytree_checkpoint_handler.py:883-900. -/
def patchAll : List (List Key × Rep Bool) → Tree (Option P) → Option (Tree (Option P))
  | [], t => some t
  | (p, .onlyL (.leaf true)) :: l, t => (putPlaceholder t p).bind (patchAll l)
  | _ :: _, _ => none

/-- `PLACEHOLDER if is_placeholder(i) else v`, base_pytree_checkpoint_handler.py:901-905; the two trees have the same structure. -/
def masked {α} (serialized : Tree (Option α)) (vmt : Tree (Option P)) : Option (Tree (Option P)) :=
  vmt.mapPath false (fun p => match serialized.at_ p, vmt.at_ p with
    | some (.leaf none), _ => some (.leaf none)
    | some _, some v => some v
    | _, _ => none) []

/-- `_partial_restore_with_placeholders`, base_pytree_checkpoint_handler.py:869-905. -/
def placeholders {α} (serialized : Tree (Option α)) (vmt : Py) : Option (Tree (Option P)) := do
  let reports := match difference serialized vmt with
    | none => []
    | some d => d.reports
  let u ← patchAll reports (Tree.map some vmt)
  masked serialized u

mutual
/-- `i if r is PLACEHOLDER else r`, base_pytree_checkpoint_handler.py:1097-1103; `none`: the structures do not match. -/
def Tree.patch {V} : Tree (Option V) → Tree (Option V) → Option (Tree (Option V))
  | .leaf none, i => some i
  | .leaf (some v), _ => some (.leaf (some v))
  | .node k f, i =>
    if f.isEmpty then some (.node k f)
    else match i with
      | .leaf _ => none
      | .node k' g => if k = k' then (Forest.patch f g).map (.node k) else none
def Forest.patch {V} : Forest (Option V) → Forest (Option V) → Option (Forest (Option V))
  | .nil, g => match g with
    | .nil => some .nil
    | .cons _ _ _ => none
  | .cons k t r, g => match g with
    | .nil => none
    | .cons k' u s =>
      if k = k' then do
        let t' ← Tree.patch t u
        let r' ← Forest.patch r s
        return .cons k t' r'
      else none
end

/-- `any(is_placeholder(leaf) for leaf in jax.tree.leaves(item))`. -/
def hasPlaceholder {V} (item : Tree (Option V)) : Bool :=
  (item.flat false).any fun x => match x.2 with
    | .leaf none => true
    | _ => false

/-- `restore`, base_pytree_checkpoint_handler.py:906-1106.  In `item` a leaf `none` is a placeholder. -/
def restore {V D} (C : Codec V D) (o : Options) (ck : Ckpt D) (part : Bool) (item : Option (Tree (Option V))) (args : Option (Tree RArg)) :
    Option (Tree (Option V)) := do
  let m ← TreeMeta.fromJson o.classes false ck.metadata
  let vmt ← m.asNested
  if Py.truthy vmt then
    match item with
    | none => restoreWith C ck.params vmt (Tree.map some vmt) args
    | some i => do
      let s ← serialize true i
      if part then do
        let (u, args) ← omission i s vmt args
        let r ← restoreWith C ck.params i u args
        Tree.patch r i
      else if hasPlaceholder i then do
        let u ← placeholders s vmt
        restoreWith C ck.params i u args
      else if (difference s vmt).isSome then none
      else restoreWith C ck.params i (Tree.map some vmt) args
  else none

end Verif.PyTree
