import Verif.Trees.Flat

/-!
# Model of value metadata entries and of rich-type tree metadata

Models `/repo/checkpoint/orbax/checkpoint/_src/metadata/value_metadata_entry.py`, `empty_values.py:100-110` and `tree_rich_types.py`.
A Python value is a tree whose leaves are strings, booleans, integers and value metadata entries; `None` is the node
without children of kind `none`.  A JSON value is such a tree made of dictionaries with string keys, lists and leaves.
The JSON text is not modelled: writing a JSON value and reading it back gives the same value, except that of two fields
with the same key the last one counts.  Exceptions are `none`.
-/

namespace Verif.TreeMetadata

open Verif Verif.Trees

/-- `ValueMetadataEntry`, value_metadata_entry.py:33-46. -/
structure Value where
  type : Name
  skip : Bool
  shape : Option (List Int)
  deriving DecidableEq, Repr

/-- A leaf of a Python value. -/
inductive P where
  | str (s : Name)
  | bool (b : Bool)
  | int (n : Int)
  | entry (v : Value)
  deriving DecidableEq, Repr

abbrev Py := Tree P

/-! ### Names used in the JSON format -/

def kValueType : Name := ['v', 'a', 'l', 'u', 'e', '_', 't', 'y', 'p', 'e']
def kSkip : Name := ['s', 'k', 'i', 'p', '_', 'd', 'e', 's', 'e', 'r', 'i', 'a', 'l', 'i', 'z', 'e']
def kShape : Name := ['w', 'r', 'i', 't', 'e', '_', 's', 'h', 'a', 'p', 'e']
def kCategory : Name := ['c', 'a', 't', 'e', 'g', 'o', 'r', 'y']
def kClazz : Name := ['c', 'l', 'a', 'z', 'z']
def kModule : Name := ['m', 'o', 'd', 'u', 'l', 'e']
def kData : Name := ['d', 'a', 't', 'a']
def kEntries : Name := ['e', 'n', 't', 'r', 'i', 'e', 's']
def kKey : Name := ['k', 'e', 'y']
def kValue : Name := ['v', 'a', 'l', 'u', 'e']
def vCustom : Name := ['c', 'u', 's', 't', 'o', 'm']
def vNamed : Name := ['n', 'a', 'm', 'e', 'd', 't', 'u', 'p', 'l', 'e']
def vTuple : Name := ['t', 'u', 'p', 'l', 'e']
def vEntry : Name := ['V', 'a', 'l', 'u', 'e', 'M', 'e', 't', 'a', 'd', 'a', 't', 'a', 'E', 'n', 't', 'r', 'y']
/-- `RESTORE_TYPE_NONE`, empty_values.py:24. -/
def tNone : Name := ['N', 'o', 'n', 'e']
/-- `RESTORE_TYPE_NAMED_TUPLE`, empty_values.py:28. -/
def tNamedTuple : Name := ['N', 'a', 'm', 'e', 'd', 'T', 'u', 'p', 'l', 'e']

/-- The key of a field of a JSON object. -/
def fld (n : Name) : Key := .dict (.str n)

def pyStr (s : Name) : Py := .leaf (.str s)

/-! ### Value metadata entries -/

/-- `ValueMetadataEntry.to_json`, value_metadata_entry.py:48-57. -/
def Value.toJson (v : Value) : Py :=
  match v.shape with
  | none => dictNode [(kValueType, pyStr v.type), (kSkip, .leaf (.bool v.skip))]
  | some s => dictNode [(kValueType, pyStr v.type), (kSkip, .leaf (.bool v.skip)),
      (kShape, listNode (s.map fun i => .leaf (.int i)))]

/-- `override_empty_value_typestr`, empty_values.py:82-89. -/
def overrideType (rich : Bool) (t : Name) : Name := if !rich && t == tNamedTuple then tNone else t

/-- The integers of a JSON list. -/
def Forest.ints : Forest P → Option (List Int)
  | .nil => some []
  | .cons _ (.leaf (.int i)) r => (Forest.ints r).map (i :: ·)
  | .cons _ _ _ => none

/-- `ValueMetadataEntry.from_json`, value_metadata_entry.py:59-78.  Fields of a wrong type, which Python would keep, are an
exception here. -/
def Value.fromJson (rich : Bool) : Py → Option Value
  | .node .dict f =>
    match f.get (fld kValueType), f.get (fld kSkip) with
    | some (.leaf (.str t)), some (.leaf (.bool s)) =>
      match f.get (fld kShape) with
      | none => some ⟨overrideType rich t, s, none⟩
      | some (.node .list g) => (Forest.ints g).map fun l => ⟨overrideType rich t, s, some l⟩
      | some _ => none
    | _, _ => none
  | _ => none

/-! ### Named tuple classes -/

/-- What Python knows about classes and identifiers: `cls.__module__`, `cls.__qualname__`, and whether a string is an
identifier and not a keyword. -/
structure Classes where
  moduleOf : Name → Name
  qualnameOf : Name → Name
  ident : Name → Bool

/-- `_new_namedtuple_type`, tree_rich_types.py:33-54, and the checks of `collections.namedtuple`; the name of the new class.
`none`: `ValueError`.  Classes are told apart by their names. -/
def newClass (c : Classes) (m q : Name) (fields : List Name) : Option Name :=
  let cls := (m ++ ['_'] ++ q ++ ['_'] ++ NameFormat.dec fields.length).map fun ch => if ch = '.' then '_' else ch
  if c.ident cls && fields.all (fun n => c.ident n && n.head? != some '_') && decide fields.Nodup then some cls else none

/-! ### Writing -/

/-- The JSON of a value metadata entry in a tree, tree_rich_types.py:89-98. -/
def Value.tagged (v : Value) : Py :=
  dictNode [(kCategory, pyStr vCustom), (kClazz, pyStr vEntry), (kData, v.toJson)]

mutual
/-- `_value_metadata_tree_for_json_dumps`, tree_rich_types.py:86-143, and the writing of its result by `simplejson`, which
turns integer keys into strings. -/
def dumpObj (c : Classes) : Py → Option Py
  | .leaf (.entry v) => some v.tagged
  | .leaf _ => none
  | .node _ .nil => none
  | .node (.named ty) f => (dumpPairs c 0 f).map fun es => dictNode [(kCategory, pyStr vNamed), (kModule, pyStr (c.moduleOf ty)),
      (kClazz, pyStr (c.qualnameOf ty)), (kEntries, .node .list es)]
  | .node .tuple f => (dumpItems c 0 f).map fun es => dictNode [(kCategory, pyStr vCustom), (kClazz, pyStr vTuple),
      (kEntries, .node .list es)]
  | .node .dict f => (dumpFields c f).map (.node .dict)
  | .node .list f => (dumpItems c 0 f).map (.node .list)
  | .node (.custom _) f => (dumpFields c f).map (.node .dict)
  | .node .none _ => none
/-- `[_value_metadata_tree_for_json_dumps(e) for e in obj]`. -/
def dumpItems (c : Classes) (i : Nat) : Forest P → Option (Forest P)
  | .nil => some .nil
  | .cons _ t r => do
    let t' ← dumpObj c t
    let r' ← dumpItems c (i + 1) r
    return .cons (.seq i) t' r'
/-- The entries of a named tuple, tree_rich_types.py:110-113. -/
def dumpPairs (c : Classes) (i : Nat) : Forest P → Option (Forest P)
  | .nil => some .nil
  | .cons k t r => do
    let t' ← dumpObj c t
    let r' ← dumpPairs c (i + 1) r
    return .cons (.seq i) (dictNode [(kKey, pyStr k.str), (kValue, t')]) r'
/-- `{k: _value_metadata_tree_for_json_dumps(v) for k, v in obj.items()}` and its variant for registered classes. -/
def dumpFields (c : Classes) : Forest P → Option (Forest P)
  | .nil => some .nil
  | .cons k t r => do
    let t' ← dumpObj c t
    let r' ← dumpFields c r
    return .cons (fld k.str) t' r'
end

mutual
/-- `value_metadata_tree_to_json_str`, tree_rich_types.py:182-232: `simplejson` writes dictionaries, lists, `None` and plain leaves by
itself and calls `_value_metadata_tree_for_json_dumps` for the rest. -/
def dump (c : Classes) : Py → Option Py
  | .leaf (.entry v) => dumpObj c (.leaf (.entry v))
  | .leaf a => some (.leaf a)
  | .node .none f => some (.node .none f)
  | .node .dict f => (dumpDict c f).map (.node .dict)
  | .node .list f => (dumpList c 0 f).map (.node .list)
  | .node k f => dumpObj c (.node k f)
def dumpDict (c : Classes) : Forest P → Option (Forest P)
  | .nil => some .nil
  | .cons k t r => do
    let t' ← dump c t
    let r' ← dumpDict c r
    return .cons (fld k.str) t' r'
def dumpList (c : Classes) (i : Nat) : Forest P → Option (Forest P)
  | .nil => some .nil
  | .cons _ t r => do
    let t' ← dump c t
    let r' ← dumpList c (i + 1) r
    return .cons (.seq i) t' r'
end

/-! ### Reading -/

/-- The fields of a new named tuple. -/
def namedForest : List (Name × Py) → Forest P
  | [] => .nil
  | (n, t) :: l => .cons (.attr n) t (namedForest l)

mutual
/-- `_value_metadata_tree_for_json_loads`, tree_rich_types.py:146-179.  Where the code expects a list or a dictionary, anything else
is an exception here. -/
def hook (c : Classes) : Py → Option Py
  | .node .dict f =>
    match f.get (fld kCategory) with
    | none => (hookAll c f).map (.node .dict)
    | some cat =>
      if cat = pyStr vCustom then
        match f.get (fld kClazz) with
        | none => none
        | some cl =>
          if cl = pyStr vEntry then ((f.get (fld kData)).bind (Value.fromJson true)).map fun v => .leaf (.entry v)
          else if cl = pyStr vTuple then (hookItemsAt c (fld kEntries) f).map (.node .tuple)
          else none
      else if cat = pyStr vNamed then
        match f.get (fld kModule), f.get (fld kClazz) with
        | some (.leaf (.str m)), some (.leaf (.str q)) =>
          (hookPairsAt c (fld kEntries) f).bind fun es =>
            (newClass c m q (es.map (·.1))).map fun cls => .node (.named cls) (namedForest es)
        | _, _ => none
      else (hookAll c f).map (.node .dict)
  | t => some t
/-- `{k: _value_metadata_tree_for_json_loads(v) for k, v in obj.items()}`. -/
def hookAll (c : Classes) : Forest P → Option (Forest P)
  | .nil => some .nil
  | .cons k t r => do
    let t' ← hook c t
    let r' ← hookAll c r
    return .cons k t' r'
/-- `_value_metadata_tree_for_json_loads(obj[k])`. -/
def hookAt (c : Classes) (k : Key) : Forest P → Option Py
  | .nil => none
  | .cons k' t r => if k' = k then hook c t else hookAt c k r
/-- `[_value_metadata_tree_for_json_loads(v) for v in obj[k]]`. -/
def hookItemsAt (c : Classes) (k : Key) : Forest P → Option (Forest P)
  | .nil => none
  | .cons k' t r => if k' = k then hookItems c t else hookItemsAt c k r
def hookItems (c : Classes) : Py → Option (Forest P)
  | .node .list f => hookAll c f
  | _ => none
/-- `[(e['key'], _value_metadata_tree_for_json_loads(e['value'])) for e in obj[k]]`. -/
def hookPairsAt (c : Classes) (k : Key) : Forest P → Option (List (Name × Py))
  | .nil => none
  | .cons k' t r => if k' = k then hookPairs c t else hookPairsAt c k r
def hookPairs (c : Classes) : Py → Option (List (Name × Py))
  | .node .list f => hookPairList c f
  | _ => none
def hookPairList (c : Classes) : Forest P → Option (List (Name × Py))
  | .nil => some []
  | .cons _ t r => do
    let x ← hookPair c t
    let l ← hookPairList c r
    return x :: l
def hookPair (c : Classes) : Py → Option (Name × Py)
  | .node .dict f =>
    match f.get (fld kKey) with
    | some (.leaf (.str n)) => (hookAt c (fld kValue) f).map fun t => (n, t)
    | _ => none
  | _ => none
end

/-- A dictionary read from JSON: of two fields with the same key the last one counts. -/
def dedupe (f : Forest P) : Forest P := f.toList.foldl (fun g x => g.put x.1 x.2) .nil

mutual
/-- `value_metadata_tree_from_json_str`, tree_rich_types.py:235-240: `simplejson` calls the hook on every object, innermost first. -/
def loads (c : Classes) : Py → Option Py
  | .leaf a => some (.leaf a)
  | .node .dict f => (loadsAll c f).bind fun f' => hook c (.node .dict (dedupe f'))
  | .node k f => (loadsAll c f).map (.node k)
def loadsAll (c : Classes) : Forest P → Option (Forest P)
  | .nil => some .nil
  | .cons k t r => do
    let t' ← loads c t
    let r' ← loadsAll c r
    return .cons k t' r'
end

end Verif.TreeMetadata
