import Verif.Trees.Trim

/-!
# Model of `merge_trees`

Models `/repo/checkpoint/orbax/checkpoint/_src/tree/structure_utils.py:515-655` with the default `is_leaf` (a leaf or `None`).
Exceptions are `none`.  The entries of a merged dictionary are listed in the order in which Python inserts them.
Not modelled: `overwrite` with a mapping or named tuple over a sequence or custom node, and with a sequence over a mapping or
custom node (here: an exception; Python iterates over whatever it gets).
-/

namespace Verif.Trees

open Verif

/-- The key of an entry of `_asdict()` or of a dictionary. -/
def Key.asDict : Key → Key
  | .attr n => .dict (.str n)
  | k => k

def Forest.asDict {α} : Forest α → Forest α
  | .nil => .nil
  | .cons k t r => .cons k.asDict t r.asDict

/-- `merged[k] = v` for the items of `f`, structure_utils.py:550-555. -/
def Forest.update {α} (g : Forest α) : Forest α → Forest α
  | .nil => g
  | .cons k t r => (g.put k.asDict t).update r

/-- `isinstance(t, abc.Mapping) or isinstance_of_namedtuple(t)`. -/
def Kind.isMap : Kind → Bool
  | .dict => true
  | .named _ => true
  | _ => false

mutual
/-- `_recursive_merge`, structure_utils.py:532-592.  `st`: do two leaves have the same type? -/
def Tree.merge {α} (overwrite : Bool) (st : α → α → Bool) : Tree α → Tree α → Option (Tree α)
  | .leaf a, t2 => match t2 with
    | .leaf b => if !st a b && !overwrite then none else some (.leaf a)
    | .node _ _ => if overwrite then some (.leaf a) else none
  | .node kd f, t2 => match t2 with
    | .leaf b => if !overwrite then none else if kd = .none then some (.leaf b) else some (.node kd f)
    | .node kd' g =>
      if kd ≠ kd' ∧ overwrite = false then none
      else if kd = .none then some (.node kd' g)
      else if kd' = .none then some (.node kd f)
      else match kd with
        -- Mapping, 547-561
        | .dict =>
          if kd'.isMap then
            (f.mergeWith overwrite st (fun k => g.find k.raw)).map fun m => .node .dict (g.asDict.update m)
          else none
        -- named tuple, 547-561: another dictionary unless the keys are the fields
        | .named n =>
          if kd'.isMap then
            (f.mergeWith overwrite st (fun k => g.find k.raw)).map fun m =>
              if g.keys.all fun l => (f.keys.map Key.raw).contains l.raw then .node (.named n) m
              else .node .dict (g.asDict.update m)
          else none
        -- Sequence, 563-574
        | .list =>
          if kd'.isSeq then
            if f.length ≠ g.length then none
            else (f.mergeWith overwrite st (fun k => (Assoc.get (zipped f g) k).map (·.2))).map (.node .list)
          else none
        | .tuple =>
          if kd'.isSeq then
            if f.length ≠ g.length then none
            else (f.mergeWith overwrite st (fun k => (Assoc.get (zipped f g) k).map (·.2))).map (.node .tuple)
          else none
        -- another internal node, 576-590
        | .custom n =>
          (f.mergeWith overwrite st (fun k => (Assoc.get (g.entries cleanKey) (cleanKey k)).map (·.2))).map (.node (.custom n))
        | .none => none
/-- The merged children of `t1`: a child that `t2` has too is merged with it, structure_utils.py:551-555, 568-570. -/
def Forest.mergeWith {α} (overwrite : Bool) (st : α → α → Bool) (look : Key → Option (Tree α)) : Forest α → Option (Forest α)
  | .nil => some .nil
  | .cons k t r => match look k with
    | none => (r.mergeWith overwrite st look).map fun r' => .cons k t r'
    | some c => do
      let t' ← t.merge overwrite st c
      let r' ← r.mergeWith overwrite st look
      return .cons k t' r'
end

mutual
/-- The paths of a tree flattened with `is_leaf=is_leaf_node_or_none`. -/
def Tree.entryPaths {α} : Tree α → List (List Key)
  | .leaf _ => [[]]
  | .node kd f => if kd = .none then [[]] else f.entryPaths
def Forest.entryPaths {α} : Forest α → List (List Key)
  | .nil => []
  | .cons k t r => t.entryPaths.map (k :: ·) ++ r.entryPaths
end

/-- `_check_for_common_keys`, structure_utils.py:515-529; `true`: it raises. -/
def commonKeys {α} (seen : List (List Name)) : List (Tree α) → Bool
  | [] => false
  | t :: ts =>
    let keys := t.entryPaths.map strPath
    keys.any (fun q => seen.contains q) || commonKeys (seen ++ keys) ts

/-- `functools.reduce`, structure_utils.py:652-655. -/
def mergeFrom {α} (overwrite : Bool) (st : α → α → Bool) : Tree α → List (Tree α) → Option (Tree α)
  | acc, [] => some acc
  | acc, t :: ts => (t.merge overwrite st acc).bind fun r => mergeFrom overwrite st r ts

/-- `merge_trees`, structure_utils.py:595-655. -/
def mergeTrees {α} (overwrite : Bool) (st : α → α → Bool) : List (Tree α) → Option (Tree α)
  | [] => some (.node .dict .nil)
  | t :: ts => if !overwrite && commonKeys [] (t :: ts) then none else mergeFrom overwrite st t ts

end Verif.Trees
