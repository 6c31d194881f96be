import Verif.Trees.Flat

/-!
# The structure inferred from a directory

`pytree_structure` of checkpoint/orbax/checkpoint/utils.py:112-148 and the placeholders of utils.py:36, 42, 78-109, used by
`_read_aggregate_file` of checkpoint/orbax/checkpoint/_src/handlers/pytree_checkpoint_handler.py:969-980 for checkpoints without a structure file.
Exceptions are `none`.  A directory is the list of the names in it, in the order of `iterdir`.
-/

namespace Verif.Trees.Inferred

/-- A leaf: a string, or something else. -/
inductive Val where
  | str (s : Name)
  | other
  deriving DecidableEq

/-- `_PLACEHOLDER_PREFIX`, utils.py:42. -/
def placeholderPrefix : Name := "PLACEHOLDER://".toList

/-- `_AGGREGATED_PREFIX`, utils.py:36. -/
def aggregatedPrefix : Name := "AGGREGATED://".toList

/-- `leaf_is_placeholder`, utils.py:78-83. -/
def isPlaceholder : Val → Bool
  | .str s => placeholderPrefix.isPrefixOf s || aggregatedPrefix.isPrefixOf s
  | .other => false

/-- `leaf_placeholder`, utils.py:86-88. -/
def placeholder (n : Name) : Val := .str (placeholderPrefix ++ n)

/-- `name_from_leaf_placeholder`, utils.py:91-104.  `replace(prefix, '', 1)` after `startswith(prefix)` drops the prefix. -/
def nameFrom (v : Val) : Option Name :=
  if isPlaceholder v then
    match v with
    | .str s =>
      if aggregatedPrefix.isPrefixOf s then some (s.drop aggregatedPrefix.length)
      else if placeholderPrefix.isPrefixOf s then some (s.drop placeholderPrefix.length)
      else none
    | .other => none
  else none

/-- `add_nested_key`, utils.py:117-132.  A placeholder in place of a dictionary raises at the assertion or at the assignment. -/
def addNested (t : Tree Val) (name : Name) : List Name → Option (Tree Val)
  | [] => some t
  | [n] => match t with
    | .node .dict f => if (f.get (.dict (.str n))).isSome then none else some (.node .dict (f.put (.dict (.str n)) (.leaf (placeholder name))))
    | _ => none
  | n :: m :: p => match t with
    | .node .dict f =>
      (addNested ((f.get (.dict (.str n))).getD emptyDict) name (m :: p)).map fun c => .node .dict (f.put (.dict (.str n)) c)
    | _ => none

/-- The names passed over, utils.py:139-146. -/
def skipped (k : Name) : Bool :=
  decide (k = "_sharding".toList) || decide (k = "_METADATA".toList) || decide (k = "array_metadatas".toList)

/-- The loop over the directory, utils.py:136-147. -/
def loop : Tree Val → List Name → Option (Tree Val)
  | t, [] => some t
  | t, k :: l =>
    if skipped k then loop t l
    else ((split ['.'] k).bind fun p => addNested t k p).bind fun t' => loop t' l

/-- `pytree_structure`, utils.py:112-148. -/
def structure_ (dir : List Name) : Option (Tree Val) := loop emptyDict dir

end Verif.Trees.Inferred
