import Verif.Trees.Flat

/-!
# Model of `transform_utils`

Models `/repo/checkpoint/orbax/checkpoint/transform_utils.py:157-336`.  Exceptions are `none`.
The regular expression engine is a parameter: `fullmatch pattern key` is the match, given as its `expand` function.
Functions given by the user are total functions.  Logging and monitoring are left out.
-/

namespace Verif.Trees

open Verif

/-- `Transform`, transform_utils.py:34-108.  The assertions of `__post_init__` are `Rule.valid`. -/
structure Rule (α : Type) where
  originalKey : Option Name := none
  useFallback : Bool := false
  valueFn : Option (Tree α → Tree α) := none
  multiFn : Option (Name → Tree α → Tree α) := none

/-- `Transform.__post_init__`, transform_utils.py:93-108. -/
def Rule.valid {α} (r : Rule α) : Bool :=
  !(r.originalKey.isSome && (r.useFallback || r.multiFn.isSome)) &&
  !(r.useFallback && (r.originalKey.isSome || r.valueFn.isSome || r.multiFn.isSome)) &&
  !(r.valueFn.isSome && (r.useFallback || r.multiFn.isSome)) &&
  !(r.multiFn.isSome && (r.originalKey.isSome || r.useFallback || r.valueFn.isSome))

/-- `re.fullmatch`, with `match.expand`. -/
abbrev FullMatch := Name → Name → Option (Name → Name)

/-- One matching transform, transform_utils.py:245-273: the new value of the key; `v` is the current one. -/
def Rule.apply {α} (original : List (Name × Tree α)) (tree : Tree α) (dto : Bool) (key : Name) (expand : Name → Name)
    (r : Rule α) (v : Tree α) : Option (Tree α) :=
  if r.useFallback then
    if !dto then Assoc.get original key else some v
  else if !(r.multiFn.isNone || r.valueFn.isNone) then none
  else match r.multiFn with
    | none =>
      let originalKey := match r.originalKey with
        | none => key
        | some k => expand k
      match Assoc.get original originalKey with
      | none => none
      | some w => match r.valueFn with
        | none => some w
        | some f => some (f w)
    | some m => some (m key tree)

/-- The loop over the transforms, transform_utils.py:240-273: was one found, and the value. -/
def applyRules {α} (fm : FullMatch) (original : List (Name × Tree α)) (tree : Tree α) (dto : Bool) (key : Name) :
    Bool → Tree α → List (Name × Tree (Rule α)) → Option (Bool × Tree α)
  | found, v, [] => some (found, v)
  | found, v, (pattern, .leaf r) :: rs => match fm pattern key with
    | none => applyRules fm original tree dto key found v rs
    | some expand => (r.apply original tree dto key expand v).bind fun v' => applyRules fm original tree dto key true v' rs
  -- a flat dictionary without empty nodes has leaves only
  | found, v, (_, .node _ _) :: rs => applyRules fm original tree dto key found v rs

/-- The body of the loop over the keys, transform_utils.py:239-281. -/
def applyKey {α} (fm : FullMatch) (original : List (Name × Tree α)) (tree : Tree α) (dto : Bool) (rules : List (Name × Tree (Rule α)))
    (key : Name) (own : Tree α) : Option (Tree α) :=
  (applyRules fm original tree dto key false own rules).map fun (found, v) =>
    if found then v
    else match Assoc.get original key with
      | some w => if dto then w else v
      | none => v

/-- `from_flat_dict` with a `target` and `sep`, utils.py:350-359. -/
def fromFlatTargetSep {α β} (sep : Name) (d : List (Name × Tree β)) (target : Tree α) : Option (Tree β) :=
  (((toFlatSep sep false target).map (·.1)).mapM (Assoc.get d)).bind (unflatten target)

/-- `not jax.tree.leaves(new_tree) and not new_tree`, transform_utils.py:230; a class is true. -/
def falsy {α} : Tree α → Bool
  | .leaf _ => false
  | .node (.custom _) _ => false
  | .node _ f => f.isEmpty

/-- `apply_transformations`, transform_utils.py:157-294. -/
def applyTransformations {α} (fm : FullMatch) (dto : Bool) (original : Tree α) (transformations : Tree (Rule α)) (new : Tree α) :
    Option (Tree α) :=
  if falsy new then some emptyDict
  else
    let o := toFlatSep ['/'] false original
    let rules := toFlatSep ['/'] false transformations
    ((toFlatSep ['/'] false new).mapM fun (key, v) => (applyKey fm o original dto rules key v).map fun v' => (key, v')).bind
      fun d => fromFlatTargetSep ['/'] d new

/-- `a |= b` for dictionaries. -/
def ior {κ β} [DecidableEq κ] (a b : List (κ × β)) : List (κ × β) := b.foldl (fun d x => Assoc.put d x.1 x.2) a

/-- `from_flat_dict` with an optional `target`. -/
def fromFlatOpt {α} (target : Option (Tree α)) (d : List (List Name × Tree α)) : Option (Tree α) := match target with
  | none => fromFlat d
  | some t => fromFlatTarget d t

/-- `merge_trees`, transform_utils.py:297-313. -/
def mergeFlat {α} (trees : List (Tree α)) (target : Option (Tree α)) : Option (Tree α) :=
  fromFlatOpt target ((trees.map (toFlat false)).foldl ior [])

/-- `intersect_trees`, transform_utils.py:316-336; `none` for no trees: `TypeError`.
The result is built from a set; the order of the keys is that of the last tree here. -/
def intersectFlat {α} (trees : List (Tree α)) (target : Option (Tree α)) : Option (Tree α) :=
  match trees.getLast? with
  | none => none
  | some last => fromFlatOpt target ((toFlat false last).filter fun x => trees.all fun t => (Assoc.get (toFlat false t) x.1).isSome)

end Verif.Trees
