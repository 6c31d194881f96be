import Verif.Metadata.Rich
import Verif.Metadata.Repr
import Verif.Trees.Merge

/-!
# Model of the tree metadata

Models `/repo/checkpoint/orbax/checkpoint/_src/metadata/tree.py:60-685, 899-1040`.  Python values and JSON values as in
`Verif.Metadata.Rich`; the string that holds the JSON of the rich tree is replaced by that JSON value.  Exceptions are `none`.
Not modelled: `as_custom_metadata` (it reads the checkpoint), the parameter names, and the check that the custom metadata can be written as
JSON.
-/

namespace Verif.TreeMetadata

open Verif Verif.Trees

def kKeyName : Name := ['k', 'e', 'y']
def kKeyType : Name := ['k', 'e', 'y', '_', 't', 'y', 'p', 'e']
def kTree : Name := ['t', 'r', 'e', 'e', '_', 'm', 'e', 't', 'a', 'd', 'a', 't', 'a']
def kKeyMeta : Name := ['k', 'e', 'y', '_', 'm', 'e', 't', 'a', 'd', 'a', 't', 'a']
def kValueMeta : Name := ['v', 'a', 'l', 'u', 'e', '_', 'm', 'e', 't', 'a', 'd', 'a', 't', 'a']
def kOcdbt : Name := ['u', 's', 'e', '_', 'o', 'c', 'd', 'b', 't']
def kZarr3 : Name := ['u', 's', 'e', '_', 'z', 'a', 'r', 'r', '3']
/-- `store_array_data_equal_to_fill_value`. -/
def kStore : Name := ['s', 't', 'o', 'r', 'e', '_', 'a', 'r', 'r', 'a', 'y']
def kRichTree : Name := ['v', 'a', 'l', 'u', 'e', '_', 'm', 'e', 't', 'a', 'd', 'a', 't', 'a', '_', 't', 'r', 'e', 'e']
def kCustom : Name := ['c', 'u', 's', 't', 'o', 'm', '_', 'm', 'e', 't', 'a', 'd', 'a', 't', 'a']

/-! ### Keys -/

/-- `KeyType`, tree.py:70-81. -/
inductive KeyType where
  | sequence
  | dict
  deriving DecidableEq, Repr

def KeyType.toJson : KeyType → Py
  | .sequence => .leaf (.int 1)
  | .dict => .leaf (.int 2)

def KeyType.fromJson (t : Py) : Option KeyType :=
  if t = .leaf (.int 1) then some .sequence else if t = .leaf (.int 2) then some .dict else none

/-- `_get_key_metadata_type`, tree.py:84-91; other key classes do not occur here. -/
def keyType (k : Key) : KeyType := if k.isDict then .dict else .sequence

/-- `NestedKeyMetadataEntry`, tree.py:104-109. -/
structure NestedKey where
  name : Name
  type : KeyType
  deriving DecidableEq, Repr

/-- `NestedKeyMetadataEntry.to_json`, tree.py:111-115. -/
def NestedKey.toJson (k : NestedKey) : Py := dictNode [(kKeyName, pyStr k.name), (kKeyType, k.type.toJson)]

/-- `NestedKeyMetadataEntry.from_json`, tree.py:117-124. -/
def NestedKey.fromJson : Py → Option NestedKey
  | .node .dict f =>
    match f.get (fld kKeyName), f.get (fld kKeyType) with
    | some (.leaf (.str n)), some t => (KeyType.fromJson t).map fun t => ⟨n, t⟩
    | _, _ => none
  | _ => none

/-- `NestedKeyMetadataEntry(str(get_key_name(k)), _get_key_metadata_type(k))`, tree.py:149-153. -/
def nestedKey (k : Key) : NestedKey := ⟨k.str, keyType k⟩

/-- `int(s)`, for strings of digits only. -/
def parseNat (s : Name) : Option Nat := if s ≠ [] ∧ s.all NameFormat.isDigit = true then some (NameFormat.intOf s) else none

/-- `_keypath_from_key_type`, tree.py:94-101. -/
def NestedKey.jaxKey (k : NestedKey) : Option Key :=
  match k.type with
  | .sequence => (parseNat k.name).map .seq
  | .dict => some (.dict (.str k.name))

/-! ### Entries -/

/-- `InternalTreeMetadataEntry`, tree.py:158-164. -/
structure Entry where
  keypath : Name
  keys : List NestedKey
  value : Value
  deriving DecidableEq, Repr

/-- The dictionary of an entry, tree.py:166-172. -/
def Entry.toJson (e : Entry) : Py :=
  dictNode [(kKeyMeta, listNode (e.keys.map NestedKey.toJson)), (kValueMeta, e.value.toJson)]

/-- `[f(x) for x in l]` for a list. -/
def Forest.mapM {β} (g : Py → Option β) : Forest P → Option (List β)
  | .nil => some []
  | .cons _ t r => do
    let x ← g t
    let l ← Forest.mapM g r
    return x :: l

/-- `InternalTreeMetadataEntry.from_json`, tree.py:174-187; `KeyMetadataEntry.from_json`, tree.py:139-145.  Always without rich types. -/
def Entry.fromJson (keypath : Name) : Py → Option Entry
  | .node .dict f =>
    match f.get (fld kKeyMeta), f.get (fld kValueMeta) with
    | some (.node .list ks), some v => do
      let ks ← Forest.mapM NestedKey.fromJson ks
      let v ← Value.fromJson false v
      return ⟨keypath, ks, v⟩
    | _, _ => none
  | _ => none

/-- What the metadata takes from a `ParamInfo`. -/
structure Info where
  typestr : Option Name
  shape : Option (List Int)
  deriving DecidableEq, Repr

/-- `is_empty_typestr`, empty_values.py:92-99. -/
def isEmptyType (t : Name) : Bool :=
  t == ['L', 'i', 's', 't'] || t == tNamedTuple || t == ['T', 'u', 'p', 'l', 'e'] || t == ['D', 'i', 'c', 't'] || t == tNone

/-- `ValueMetadataEntry.build`, value_metadata_entry.py:80-97. -/
def Info.value (i : Info) : Option Value := i.typestr.map fun t => ⟨t, isEmptyType t, i.shape⟩

/-- `InternalTreeMetadataEntry.build`, tree.py:189-201; `KeyMetadataEntry.build`, tree.py:147-155.  `none`: the type string is missing, or the
leaf is an empty container instead of a `ParamInfo`. -/
def Entry.build (pr : Char → Bool) (p : List Key) : Tree Info → Option Entry
  | .leaf i => i.value.map fun v => ⟨tupleRepr pr (strPath p), p.map nestedKey, v⟩
  | .node _ _ => none

/-- `jax_keypath`, tree.py:203-209. -/
def Entry.path (e : Entry) : Option (List Key) := e.keys.mapM NestedKey.jaxKey

/-! ### The metadata of a tree -/

/-- `InternalTreeMetadata`, tree.py:212-232.  `custom` is `None` for no custom metadata. -/
structure TreeMeta where
  entries : List Entry
  ocdbt : Option Bool
  zarr3 : Bool
  custom : Py
  store : Bool
  rich : Bool
  richTree : Option Py

mutual
/-- `jax.tree_util.tree_map(f, tree, is_leaf=is_empty_or_leaf)` for an `f` that fails on empty containers. -/
def Tree.mapLeaf {α β} (g : α → Option β) : Tree α → Option (Tree β)
  | .leaf a => (g a).map .leaf
  | .node k f => match f with
    | .nil => none
    | .cons key t r => (Forest.mapLeaf g (.cons key t r)).map (.node k)
def Forest.mapLeaf {α β} (g : α → Option β) : Forest α → Option (Forest β)
  | .nil => some .nil
  | .cons k t r => do
    let t' ← Tree.mapLeaf g t
    let r' ← Forest.mapLeaf g r
    return .cons k t' r'
end

/-- `InternalTreeMetadata.build`, tree.py:253-306.  `saveArgs` are as many as the tree of `SaveArgs` has leaves (by default as many as the tree
has); with rich types a `SaveArgs` tree of another structure, which raises, is not modelled. -/
def TreeMeta.build (pr : Char → Bool) (infos : Tree Info) (saveArgs : Nat) (ocdbt : Option Bool) (zarr3 : Bool) (custom : Py) (store rich : Bool) :
    Option TreeMeta := do
  let entries ← ((infos.flat true).take saveArgs).mapM fun x => Entry.build pr x.1 x.2
  let tree ← if rich then (Tree.mapLeaf (fun i => i.value.map P.entry) infos).map some else some none
  return ⟨entries, ocdbt, zarr3, custom, store, rich, tree⟩

/-- `functools.reduce(operator.ior, [entry.to_json() for entry in entries], {})`. -/
def entriesJson (l : List Entry) : Forest P := l.foldl (fun f e => f.put (fld e.keypath) e.toJson) .nil

def ocdbtJson : Option Bool → Py
  | none => .pyNone
  | some b => .leaf (.bool b)

/-- `to_json`, tree.py:366-396. -/
def TreeMeta.toJson (c : Classes) (m : TreeMeta) : Option Py :=
  let base := [(kTree, .node .dict (entriesJson m.entries)), (kOcdbt, ocdbtJson m.ocdbt), (kZarr3, .leaf (.bool m.zarr3)),
    (kStore, .leaf (.bool m.store)), (kCustom, m.custom)]
  match m.rich, m.richTree with
  | true, some t => (dump c t).map fun j => dictNode (base ++ [(kRichTree, j)])
  | _, _ => some (dictNode base)

/-- The entries of the JSON dictionary, tree.py:420-426. -/
def entriesOf : Forest P → Option (List Entry)
  | .nil => some []
  | .cons k t r => do
    let e ← Entry.fromJson k.str t
    let l ← entriesOf r
    return e :: l

/-- `from_json`, tree.py:398-448.  Flags of a wrong type are an exception here. -/
def TreeMeta.fromJson (c : Classes) (rich : Bool) : Py → Option TreeMeta
  | .node .dict f => do
    let ocdbt ← match f.get (fld kOcdbt) with
      | none => some none
      | some (.node .none .nil) => some none
      | some (.leaf (.bool b)) => some (some b)
      | some _ => none
    let zarr3 ← match f.get (fld kZarr3) with
      | none => some false
      | some (.leaf (.bool b)) => some b
      | some _ => none
    let store ← match f.get (fld kStore) with
      | none => some false
      | some (.leaf (.bool b)) => some b
      | some _ => none
    let custom := (f.get (fld kCustom)).getD .pyNone
    let entries ← match f.get (fld kTree) with
      | some (.node .dict es) => entriesOf es
      | _ => none
    let tree ← match rich, f.get (fld kRichTree) with
      | true, some j => (loads c j).map some
      | _, _ => some none
    return ⟨entries, ocdbt, zarr3, custom, store, rich, tree⟩
  | _ => none

/-! ### The nested tree -/

/-- Python's `<` on lists and tuples; `none`: the elements cannot be compared. -/
def lexLt {α} [DecidableEq α] (lt : α → α → Option Bool) : List α → List α → Option Bool
  | _, [] => some false
  | [], _ :: _ => some true
  | a :: l, b :: m => if a = b then lexLt lt l m else lt a b

/-- `<` on strings. -/
def nameLt : Name → Name → Option Bool := lexLt fun c d => some (decide (c.toNat < d.toNat))

/-- `<` on key names; `none`: `TypeError` (a string and an integer). -/
def atomLt : Atom → Atom → Option Bool
  | .int i, .int j => some (decide (i < j))
  | .str s, .str t => nameLt s t
  | _, _ => none

def pathLt : List Atom → List Atom → Option Bool := lexLt atomLt

def comparable {β} (x : List Atom × β) : List (List Atom × β) → Bool
  | [] => true
  | y :: l => (pathLt x.1 y.1).isSome && comparable x l

def allComparable {β} : List (List Atom × β) → Bool
  | [] => true
  | x :: l => comparable x l && allComparable l

def insertSorted {β} (x : List Atom × β) : List (List Atom × β) → List (List Atom × β)
  | [] => [x]
  | y :: l => if pathLt y.1 x.1 = some true then y :: insertSorted x l else x :: y :: l

/-- `l.sort(key=lambda x: x[0])`, tree.py:467: the stable sort.  A comparison sort raises as soon as two elements cannot be compared: their order
cannot be found out from other comparisons. -/
def sortPaths {β} (l : List (List Atom × β)) : Option (List (List Atom × β)) :=
  if allComparable l then some (l.foldr insertSorted []) else none

/-- The filter on prefixes, tree.py:477-484. -/
def dropPrefixes {β} : List (List Atom × β) → List β
  | [] => []
  | [x] => [x.2]
  | x :: y :: l =>
    if x.1.length < y.1.length ∧ y.1.take x.1.length = x.1 then dropPrefixes (y :: l)
    else x.2 :: dropPrefixes (y :: l)

/-- The key names of an entry, and what the tree is built from, tree.py:463-466, 486-489. -/
def Entry.item (e : Entry) : Option (List Atom × (List Key × Py)) := e.path.map fun p => (p.map Key.name, (p, .leaf (.entry e.value)))

/-- `as_nested_tree`, tree.py:450-489. -/
def TreeMeta.asNested (m : TreeMeta) : Option Py :=
  match m.rich, m.richTree with
  | true, some t => some t
  | _, _ => do
    let items ← m.entries.mapM Entry.item
    let sorted ← sortPaths items
    fromKeypaths (dropPrefixes sorted)

/-! ### Merging -/

/-- Python's truth value. -/
def Py.truthy : Py → Bool
  | .leaf (.str s) => s ≠ []
  | .leaf (.bool b) => b
  | .leaf (.int i) => i ≠ 0
  | .leaf (.entry _) => true
  | .node .none _ => false
  | .node (.custom _) _ => true
  | .node _ f => !f.isEmpty

/-- Are two leaves of the same type? -/
def P.sameType : P → P → Bool
  | .str _, .str _ => true
  | .bool _, .bool _ => true
  | .int _, .int _ => true
  | .entry _, .entry _ => true
  | _, _ => false

/-- `merged[k] = v` for the entries of the other tree, tree.py:636-642; `none`: `ValueError` (a duplicate). -/
def mergeFields (overwrite : Bool) : Forest P → Forest P → Option (Forest P)
  | merged, .nil => some merged
  | merged, .cons k v r =>
    if (merged.get k).isSome && !overwrite then none else mergeFields overwrite (merged.put k v) r

/-- `custom_metadata` of the merged tree, tree.py:648-655. -/
def mergeCustom (overwrite : Bool) (a b : Py) : Option Py :=
  if a ≠ .pyNone ∧ b ≠ .pyNone then mergeTrees overwrite P.sameType [a, b]
  else some (if Py.truthy a then a else b)

/-- `value_metadata_tree` of the merged tree, tree.py:657-670. -/
def mergeRich (overwrite : Bool) : Option Py → Option Py → Option (Option Py)
  | some a, some b => (mergeTrees overwrite P.sameType [a, b]).map some
  | some a, none => some (if Py.truthy a then some a else none)
  | none, b => some b

/-- `merge`, tree.py:586-681. -/
def TreeMeta.merge (overwrite : Bool) (a b : TreeMeta) : Option TreeMeta :=
  if a.zarr3 ≠ b.zarr3 then none
  else if a.ocdbt ≠ b.ocdbt then none
  else if a.rich ≠ b.rich then none
  else if a.store ≠ b.store then none
  else do
    let merged ← mergeFields overwrite (entriesJson a.entries) (entriesJson b.entries)
    let entries ← entriesOf merged
    let custom ← mergeCustom overwrite a.custom b.custom
    let tree ← mergeRich overwrite a.richTree b.richTree
    return ⟨entries, a.ocdbt, a.zarr3, custom, a.store, a.rich, tree⟩

/-! ### `TreeMetadata` as a JAX node -/

/-- `_TreeMetadataImpl`, tree.py:899-957. -/
structure TM (α : Type) where
  tree : Tree α
  custom : Option (Tree α)
  zarr3 : Bool

/-- The constructor, tree.py:906-951; `none`: `ValueError`.  An object of a registered class without children counts as a bare leaf in JAX only if
it is not registered, so it is refused. -/
def TM.make {α} (tree : Tree α) (custom : Option (Tree α)) (zarr3 : Bool) : Option (TM α) :=
  match tree with
  | .leaf _ => some ⟨tree, custom, zarr3⟩
  | .node .dict _ => some ⟨tree, custom, zarr3⟩
  | .node .list _ => some ⟨tree, custom, zarr3⟩
  | .node .tuple _ => some ⟨tree, custom, zarr3⟩
  | .node (.named _) _ => some ⟨tree, custom, zarr3⟩
  | .node _ _ => none

/-- The class of the tree: `none` for the class of a bare leaf. -/
def treeType {α} : Tree α → Option Kind
  | .leaf _ => none
  | .node k _ => some k

/-- The dictionary `aux_data`: `tree_type` and `tree_keys` may have been popped. -/
structure Aux (α : Type) where
  type : Option (Option Kind)
  keys : Option (List Key)
  custom : Option (Tree α)
  zarr3 : Bool

/-- `tree_flatten_with_keys`, tree.py:967-1000: the children and the `aux_data`. -/
def TM.flatten {α} (m : TM α) : List (Key × Tree α) × Aux α :=
  let kids : List (Key × Tree α) := match m.tree with
    | .leaf a => [(.attr ['t', 'r', 'e', 'e'], .leaf a)]
    | .node .dict f => f.toList
    | .node (.named _) f => f.toList.map fun x => (.dict (.str x.1.str), x.2)
    | .node _ f => f.toList
  (kids, ⟨some (treeType m.tree), some (kids.map (·.1)), m.custom, m.zarr3⟩)

/-- `{get_key_name(k): v for k, v in zip(tree_keys, flat_tree)}`. -/
def kwargs {α} : List Key → List (Tree α) → Forest α → Forest α
  | k :: ks, v :: vs, f => kwargs ks vs (f.put (.dict (.str k.str)) v)
  | _, _, f => f

/-- The fields of a named tuple from keyword arguments. -/
def asFields {α} : Forest α → Forest α
  | .nil => .nil
  | .cons k t r => .cons (.attr k.str) t (asFields r)

/-- `tree_unflatten`, tree.py:1002-1027: also the `aux_data` afterwards, from which two fields are gone.  `none`: an exception. -/
def unflattenMeta {α} (aux : Aux α) (vals : List (Tree α)) : Option (TM α × Aux α) :=
  match aux.type, aux.keys with
  | some ty, some ks =>
    let tree : Option (Tree α) := match ty with
      | some .dict => some (.node .dict (kwargs ks vals .nil))
      | some (.named n) => if ks.length ≤ vals.length then some (.node (.named n) (asFields (kwargs ks vals .nil))) else none
      | some .list => some (.node .list (enumFrom 0 vals))
      | some .tuple => some (.node .tuple (enumFrom 0 vals))
      | _ => match vals with
        | [v] => some v
        | _ => none
    (tree.bind fun t => TM.make t aux.custom aux.zarr3).map fun m => (m, ⟨none, none, aux.custom, aux.zarr3⟩)
  | _, _ => none

end Verif.TreeMetadata
