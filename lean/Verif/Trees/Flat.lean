import Verif.Trees.Tree

/-!
# Model of flat dictionaries, serialized trees and parameter names

Models `/repo/checkpoint/orbax/checkpoint/_src/tree/utils.py:124-422`.  Exceptions are `none`.
A flat dictionary is an association list from paths (or joined strings) to values; values are trees.
`inplace` is left out: it only empties the argument.
-/

namespace Verif.Trees

/-! ### Strings -/

/-- Python `sep.join(l)`. -/
def join (sep : Name) : List Name → Name
  | [] => []
  | [a] => a
  | a :: b :: l => a ++ sep ++ join sep (b :: l)

/-- The scan of `s.split(sep)`: characters still to skip, and the current piece, reversed. -/
def splitAux (sep : Name) : Nat → Name → Name → List Name
  | _, acc, [] => [acc.reverse]
  | skip + 1, acc, _ :: s => splitAux sep skip acc s
  | 0, acc, c :: s =>
    if sep.isPrefixOf (c :: s) then acc.reverse :: splitAux sep (sep.length - 1) [] s
    else splitAux sep 0 (c :: acc) s

/-- Python `s.split(sep)`; `none`: `ValueError` (empty separator). -/
def split (sep s : Name) : Option (List Name) := if sep = [] then none else some (splitAux sep 0 [] s)

/-! ### Forests as mutable dictionaries and lists -/

/-- `d[k] = v` for the children of a dictionary. -/
def Forest.put {α} : Forest α → Key → Tree α → Forest α
  | .nil, k, v => .cons k v .nil
  | .cons k' t r, k, v => if k' = k then .cons k' v r else .cons k' t (r.put k v)

def Forest.length {α} : Forest α → Nat
  | .nil => 0
  | .cons _ _ r => r.length + 1

def Forest.append {α} : Forest α → Forest α → Forest α
  | .nil, g => g
  | .cons k t r, g => .cons k t (r.append g)

/-- `{}`. -/
def emptyDict {α} : Tree α := .node .dict .nil
/-- `[]`. -/
def emptyList {α} : Tree α := .node .list .nil

/-! ### Flat dictionaries -/

/-- `to_flat_dict`, utils.py:257-294, without `sep` and `is_leaf`. -/
def toFlat {α} (keep : Bool) (t : Tree α) : List (List Name × Tree α) :=
  (t.flat keep).foldl (fun d x => Assoc.put d (strPath x.1) x.2) []

/-- `to_flat_dict` with `sep`, utils.py:292-293. -/
def toFlatSep {α} (sep : Name) (keep : Bool) (t : Tree α) : List (Name × Tree α) :=
  (toFlat keep t).foldl (fun d x => Assoc.put d (join sep x.1) x.2) []

/-- Insertion of one entry, utils.py:333-348.  A subtree that is not a dictionary raises. -/
def insertFlat {α} (t : Tree α) : List Name → Tree α → Option (Tree α)
  | [], _ => some t
  | [n], v => match t with
    | .node .dict f => if (f.get (.dict (.str n))).isSome then none else some (.node .dict (f.put (.dict (.str n)) v))
    | _ => none
  | n :: m :: p, v => match t with
    | .node .dict f =>
      (insertFlat ((f.get (.dict (.str n))).getD emptyDict) (m :: p) v).map fun c => .node .dict (f.put (.dict (.str n)) c)
    | _ => none

/-- `from_flat_dict` without `sep` and `target`, utils.py:322-349. -/
def fromFlat {α} (d : List (List Name × Tree α)) : Option (Tree α) :=
  match Assoc.get d [] with
  | some v => if d.length ≠ 1 then none else some v
  | none => d.foldlM (fun t x => insertFlat t x.1 x.2) emptyDict

/-- `from_flat_dict` with `sep` and without `target`, utils.py:332-349. -/
def fromFlatSep {α} (sep : Name) (d : List (Name × Tree α)) : Option (Tree α) :=
  d.foldlM (fun t x => (split sep x.1).bind fun p => insertFlat t p x.2) emptyDict

/-- `from_flat_dict` with a `target`, utils.py:350-359; `none`: `KeyError` or a wrong number of leaves. -/
def fromFlatTarget {α β} (d : List (List Name × Tree β)) (target : Tree α) : Option (Tree β) :=
  (((toFlat false target).map (·.1)).mapM (Assoc.get d)).bind (unflatten target)

/-! ### Serialized trees -/

/-- The container created for a key, utils.py:158-164, 180-187. -/
def container {α} (k : Key) : Tree α := if k.isDict then emptyDict else emptyList

/-- `_extend_list`, utils.py:124-128, on the children of a list; `none`: `AssertionError`. -/
def extendList {α} (f : Forest α) (i : Nat) (v : Tree α) : Option (Forest α) :=
  if i > f.length then none
  else if i = f.length then some (f.append (.cons (.seq i) v .nil))
  else some f

/-- The index of a sequence key. -/
def Key.idx : Key → Nat
  | .seq i => i
  | .flat i => i
  | _ => 0

/-- Insertion of one (path, value) pair, utils.py:166-201. -/
def insertKey {α} (t : Tree α) : List Key → Tree α → Option (Tree α)
  | [], _ => some t
  | [k], v =>
    if k.isDict then match t with
      | .node .dict f => some (.node .dict (f.put (.dict (.str k.str)) v))
      | _ => none
    else match t with
      | .node .list f => (extendList f k.idx v).map (.node .list)
      | _ => none
  | k :: k2 :: p, v =>
    if k.isDict then match t with
      | .node .dict f =>
        (insertKey ((f.get (.dict (.str k.str))).getD (container k2)) (k2 :: p) v).map fun c =>
          .node .dict (f.put (.dict (.str k.str)) c)
      | _ => none
    else match t with
      | .node .list f => do
        let f' ← extendList f k.idx (container k2)
        let c ← f'.get (.seq k.idx)
        let c' ← insertKey c (k2 :: p) v
        return .node .list (f'.put (.seq k.idx) c')
      | _ => none

/-- The class of a key. -/
def Key.cls : Key → Nat
  | .seq _ => 0
  | .dict _ => 1
  | .attr _ => 2
  | .flat _ => 3

/-- `from_flattened_with_keypath`, utils.py:131-203. -/
def fromKeypaths {α} (l : List (List Key × Tree α)) : Option (Tree α) :=
  match l with
  | [] => none
  | ([], v) :: _ => some v
  | (k :: _, _) :: _ =>
    if l.all fun x => match x.1 with
      | [] => true
      | k' :: _ => k'.cls == k.cls
    then l.foldlM (fun t x => insertKey t x.1 x.2) (container k) else none

/-- `serialize_tree`, utils.py:206-226. -/
def serialize {α} (keep : Bool) (t : Tree α) : Option (Tree α) := fromKeypaths (t.flat keep)

/-- The child with a given position. -/
def Forest.nth {α} : Forest α → Nat → Option (Tree α)
  | .nil, _ => none
  | .cons _ t _, 0 => some t
  | .cons _ _ r, i + 1 => r.nth i

/-- One step of `_reconstruct_from_keypath`, utils.py:235-242, and `look_up_pytree_key`, utils.py:390-422.
Leaves are not indexed (Python would index an array leaf); a class is looked up by its key. -/
def lookUp {α} (t : Tree α) (k : Key) : Option (Tree α) :=
  match t with
  | .leaf _ => none
  | .node .dict f => match f.get (.dict k.name) with
    | some c => some c
    | none => f.get (.dict (.str k.str))
  | .node .list f => match k.name with
    | .int (.ofNat i) => f.nth i
    | _ => none
  | .node .tuple f => match k.name with
    | .int (.ofNat i) => f.nth i
    | _ => none
  | .node .none _ => none
  | .node (.named _) f => match k with
    | .seq i => f.nth i
    | .flat i => f.nth i
    | .attr _ => f.get k
    | .dict (.int (.ofNat i)) => f.nth i
    | .dict _ => none
  | .node (.custom _) f => match k with
    | .flat i => f.nth i
    | k => f.get k

/-- `_reconstruct_from_keypath`, utils.py:233-243. -/
def walk {α} (t : Tree α) : List Key → Option (Tree α)
  | [] => some t
  | k :: p => (lookUp t k).bind fun c => walk c p

/-- `deserialize_tree`, utils.py:229-249. -/
def deserialize {α β} (keep : Bool) (serialized : Tree β) (target : Tree α) : Option (Tree β) :=
  target.mapPath keep (walk serialized) []

/-! ### Parameter names -/

/-- `param_name_from_keypath`, utils.py:367-369. -/
def paramName (p : List Key) : Name := join ['.'] (strPath p)

/-- The parameter names of the leaves of a tree, in order; `get_param_names`, utils.py:372-381. -/
def paramNames {α} (keep : Bool) (t : Tree α) : List Name := (t.flat keep).map fun x => paramName x.1

end Verif.Trees
