import Verif.Trees.PartsOf
import Verif.Trees.TreeLemmas

/-!
# Model of `tree_trim`

Models `/repo/checkpoint/orbax/checkpoint/_src/tree/structure_utils.py:183-512`.
Exceptions are `none`.  The calls of the callback are collected in a list; the path of a removed node is given by
the keys of `structure` (the code gives `k`, the index, or `keystr` of the key), and is built by prefixing on the way
back instead of being passed down (`_wrap_callback_for_conversion`, 289-303, only renders the key).  The order of the
calls is not modelled.  No leaf of `structure` is a string or `...`.  As everywhere in this model, entries of dictionaries are
listed in the order in which JAX visits them, so a result is listed in the order of the template.
-/

namespace Verif.Trees

open Verif

/-- A dictionary of the children of a node: `structure.items()` with `Key.raw`, or `child_node_by_clean_key` of
`_jax_internal_node_to_dict`, structure_utils.py:272-286, with `cleanKey`. -/
def Forest.entries {α} (key : Key → Atom) (f : Forest α) : List (Atom × (Key × Tree α)) :=
  f.toList.foldl (fun d x => Assoc.put d (key x.1) x) []

/-- `str(utils.get_key_name(k[0]))`, structure_utils.py:278. -/
def cleanKey (k : Key) : Atom := .str k.str

/-- `list`, `tuple` or a named tuple: `abc.Sequence`. -/
def Kind.isSeq : Kind → Bool
  | .list => true
  | .tuple => true
  | .named _ => true
  | _ => false

/-- `structure_dict` for a mapping template, structure_utils.py:317-341. -/
def asDict {α} (align : Bool) : Tree α → Option (List (Atom × (Key × Tree α)))
  | .leaf _ => none
  | .node .dict g => some (g.entries Key.raw)
  | .node .none _ => some []
  | .node .list g => if align then some (g.entries cleanKey) else none
  | .node .tuple g => if align then some (g.entries cleanKey) else none
  | .node (.named _) g => some (g.entries cleanKey)
  | .node (.custom _) g => some (g.entries cleanKey)

/-- The children of a sequence template and of the sequence, `zip(template, structure)`, structure_utils.py:423-433. -/
def zipped {α β} (f : Forest β) (g : Forest α) : List (Key × (Key × Tree α)) := f.keys.zip g.toList

/-- `drop_items`, structure_utils.py:360-365. -/
def dropped {α} (names : List Atom) (es : List (Atom × (Key × Tree α))) : List (List Key × Tree α) :=
  (es.filter fun e => !names.contains e.1).map fun e => ([e.2.1], e.2.2)

/-- The calls of the callback for the child `l`. -/
def under {α} (l : Key) (d : List (List Key × Tree α)) : List (List Key × Tree α) := d.map fun x => (l :: x.1, x.2)

mutual
/-- `_tree_trim`, structure_utils.py:306-491: the result, with placeholders, and the removed nodes. -/
def Tree.trim {α β} (strict align : Bool) : Tree β → Tree α → Option (Tree (Option α) × List (List Key × Tree α))
  -- a leaf, 480-486
  | .leaf _, s => match s with
    | .leaf a => some (.leaf (some a), [])
    | .node .none _ => some (.pyNone, [])
    | _ => none
  -- None, 463-479
  | .node .none _, s => match s with
    | .leaf a => some (.pyNone, [([], .leaf a)])
    | .node k g => (asDict align (.node k g)).map fun es => (.pyNone, dropped [] es)
  -- a mapping, 316-378
  | .node .dict f, s => do
    let es ← asDict align s
    let (r, d) ← f.trimWith strict align (fun k => Assoc.get es k.raw)
    return (.node .dict r, dropped (f.keys.map Key.raw) es ++ d)
  -- a named tuple, 379-406
  | .node (.named n) f, s => match s with
    | .node .dict g => do
      let (r, d) ← f.trimWith strict align (fun k => Assoc.get (g.entries Key.raw) k.raw)
      return (.node (.named n) r, dropped (f.keys.map Key.raw) (g.entries Key.raw) ++ d)
    | .node k g =>
      if k.isSeq || k = .none then
        if g.length ≠ f.length then none
        else do
          let (r, d) ← f.trimWith strict align (fun k => Assoc.get (zipped f g) k)
          return (.node (.named n) r, d)
      else none
    | .leaf _ => none
  -- a list, 408-434
  | .node .list f, s => match s with
    | .node k g =>
      if k.isSeq || k = .none then
        if g.length ≠ f.length then none
        else do
          let (r, d) ← f.trimWith strict align (fun k => Assoc.get (zipped f g) k)
          return (.node .list r, d)
      else none
    | .leaf _ => none
  -- a tuple, 408-434
  | .node .tuple f, s => match s with
    | .node k g =>
      if k.isSeq || k = .none then
        if g.length ≠ f.length then none
        else do
          let (r, d) ← f.trimWith strict align (fun k => Assoc.get (zipped f g) k)
          return (.node .tuple r, d)
      else none
    | .leaf _ => none
  -- another internal node, 435-462
  | .node (.custom n) f, s => match s with
    | .node _ g => do
      let (r, d) ← f.trimWith strict align (fun k => Assoc.get (g.entries cleanKey) (cleanKey k))
      return (.node (.custom n) r, dropped (f.keys.map cleanKey) (g.entries cleanKey) ++ d)
    | .leaf _ => none
/-- `keep_dict`, with placeholders for what is missing, structure_utils.py:348-378, and `elements`, 423-433;
`look` finds the child of the structure for a key of the template. -/
def Forest.trimWith {α β} (strict align : Bool) (look : Key → Option (Key × Tree α)) :
    Forest β → Option (Forest (Option α) × List (List Key × Tree α))
  | .nil => some (.nil, [])
  | .cons k t r => match look k with
    | none =>
      if strict then none
      else (r.trimWith strict align look).map fun x => (.cons k (t.relabel (fun _ => none) []) x.1, x.2)
    | some (l, c) => do
      let (t', d) ← t.trim strict align c
      let (r', d') ← r.trimWith strict align look
      return (.cons k t' r', under l d ++ d')
end

/-- `_tree_trim_impl`, structure_utils.py:494-512; also `tree_trim` if not `strict`. -/
def trimParts {α β} (strict align : Bool) (template : Tree β) (s : Tree α) : Option (Parts α × List (List Key × Tree α)) := do
  let (r, d) ← template.trim strict align s
  let p ← Parts.init template r
  return (p, d)

/-- `tree_trim` with `strict`, structure_utils.py:262-269. -/
def trimFull {α β} (align : Bool) (template : Tree β) (s : Tree α) : Option (Tree α × List (List Key × Tree α)) := do
  let (p, d) ← trimParts true align template s
  let t ← p.full
  return (t, d)

end Verif.Trees
