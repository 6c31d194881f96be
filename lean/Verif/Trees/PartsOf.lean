import Verif.Trees.Flat

/-!
# Model of `PartsOf`

Models `/repo/checkpoint/orbax/checkpoint/_src/tree/parts_of.py:59-469`.  A value with placeholders is a tree whose
leaves are `some a` or `none` (`...`).  Exceptions are `none`.  Logging, `structure_hash` and the registration as a
JAX node are left out.
-/

namespace Verif.Trees

open Verif

mutual
/-- The structure of a tree (`PyTreeDef`): the tree without its leaf values. -/
def Tree.shape {α} : Tree α → Tree Unit
  | .leaf _ => .leaf ()
  | .node k f => .node k f.shape
def Forest.shape {α} : Forest α → Forest Unit
  | .nil => .nil
  | .cons k t r => .cons k t.shape r.shape
end

mutual
/-- `jax.tree_util.tree_map_with_path` with a function that gives leaves. -/
def Tree.relabel {α β} (h : List Key → β) : List Key → Tree α → Tree β
  | p, .leaf _ => .leaf (h p)
  | p, .node k f => .node k (f.relabel h p)
def Forest.relabel {α β} (h : List Key → β) : List Key → Forest α → Forest β
  | _, .nil => .nil
  | p, .cons k t r => .cons k (t.relabel h (p ++ [k])) (r.relabel h p)
end

/-- `PartsOf`, parts_of.py:70-113. -/
structure Parts (α : Type) where
  template : Tree Unit
  present : List (List Name × α)

/-- A leaf of a value with placeholders: its value unless it is a placeholder. -/
def leafValue {α} : Tree (Option α) → Option α
  | .leaf o => o
  | .node _ _ => none

/-- `PartsOf.__init__`, parts_of.py:115-134; `none`: `Error`. -/
def Parts.init {α β} (template : Tree β) (value : Tree (Option α)) : Option (Parts α) :=
  let present := (toFlat false value).filterMap fun x => (leafValue x.2).map fun a => (x.1, a)
  let templatePaths := (toFlat false template).map (·.1)
  if present.all fun x => templatePaths.contains x.1 then some ⟨template.shape, present⟩ else none

/-- `()`. -/
def emptyTuple {α} : Tree α := .node .tuple .nil

/-- `PartsOf.empty`, parts_of.py:136-141. -/
def Parts.empty {α β} (template : Tree β) : Option (Parts α) := Parts.init template emptyTuple

/-- `PartsOf.from_structure`, parts_of.py:143-160. -/
def Parts.fromStructure {α} (s : Tree (Option α)) : Option (Parts α) := Parts.init s s

/-- `_get_template`, parts_of.py:184-185: the template with placeholders as leaves. -/
def Parts.getTemplate {α} (p : Parts α) : Tree (Option α) := p.template.relabel (fun _ => none) []

/-- `PartsOf.is_empty`, parts_of.py:187-189. -/
def Parts.isEmpty {α} (p : Parts α) : Bool := p.present.isEmpty

/-- `PartsOf.full_structure`, parts_of.py:196-209; `none`: `TreeNotCompleteError`. -/
def Parts.full {α} (p : Parts α) : Option (Tree α) :=
  fromFlatTarget (p.present.map fun x => (x.1, Tree.leaf x.2)) p.getTemplate

/-- `PartsOf.unsafe_structure`, parts_of.py:211-218. -/
def Parts.unsafe {α} (p : Parts α) : Option (Tree (Option α)) :=
  let leaves := p.present.foldl (fun d x => Assoc.put d x.1 (Tree.leaf (some x.2))) (toFlat false p.getTemplate)
  fromFlatTarget leaves p.getTemplate

/-- `PartsOf.overlay`, parts_of.py:220-270. -/
def Parts.overlay {α} (p other : Parts α) (strict : Bool) : Option (Parts α) :=
  if p.template ≠ other.template then none
  else if strict && p.present.any (fun x => (Assoc.keys other.present).contains x.1) then none
  else some ⟨p.template, other.present.foldl (fun d x => Assoc.put d x.1 x.2) p.present⟩

/-- `PartsOf.intersect`, parts_of.py:272-276. -/
def Parts.intersect {α} (p other : Parts α) : Option (Parts α) :=
  if p.template ≠ other.template then none
  else some ⟨p.template, p.present.filter fun x => (Assoc.keys other.present).contains x.1⟩

/-- `PartsOf.__sub__`, parts_of.py:301-307. -/
def Parts.sub {α} (p other : Parts α) : Option (Parts α) :=
  if p.template ≠ other.template then none
  else some ⟨p.template, p.present.filter fun x => !(Assoc.keys other.present).contains x.1⟩

/-- `_pytree_key_as_tree_key`, utils.py:425-432. -/
def Key.raw : Key → Atom
  | .seq i => .int i
  | .dict k => k
  | .attr n => .str n
  | .flat i => .int i

/-- The first child whose key has a given value. -/
def Forest.find {α} : Forest α → Atom → Option (Tree α)
  | .nil, _ => none
  | .cons k t r, a => if k.raw = a then some t else r.find a

/-- `select_by_tree_path`, utils.py:473-495. -/
def selectPath {α} (t : Tree α) : List Atom → Option (Tree α)
  | [] => some t
  | a :: p => match t with
    | .leaf _ => none
    | .node _ f => (f.find a).bind fun c => selectPath c p

/-- `PartsOf.select`, parts_of.py:278-299. -/
def Parts.select {α} (p : Parts α) (path : List Atom) : Option (Parts α) := do
  let value ← p.unsafe
  let t ← selectPath p.getTemplate path
  let v ← selectPath value path
  Parts.init t v

/-- `map_leaves_with_path`, parts_of.py:361-392.  `f` gives a leaf or a placeholder (`none`); that it gives neither
`None` nor a container, which is an `Error`, is in its type. -/
def mapLeaves {α β} (f : List Name → List (Option α) → Option β) (x0 : Parts α) (xs : List (Parts α)) : Option (Parts β) :=
  if xs.any fun x => x0.template ≠ x.template then none
  else Parts.init x0.getTemplate
    (x0.getTemplate.relabel (fun p => f (strPath p) ((x0 :: xs).map fun x => Assoc.get x.present (strPath p))) [])

/-- `filter_values`, parts_of.py:395-406. -/
def filterValues {α} (p : Parts α) (keys : List (List Name)) : Option (Parts α) :=
  (Parts.empty (α := α) p.getTemplate).map fun r => ⟨r.template, p.present.filter fun x => keys.contains x.1⟩

/-- The paths of each class, parts_of.py:462-465. -/
def classes {α γ} [DecidableEq γ] (c : α → γ) (l : List (List Name × α)) : List (γ × List (List Name)) :=
  l.foldl (fun d x => Assoc.put d (c x.2) (((Assoc.get d (c x.2)).getD []) ++ [x.1])) []

/-- `partition`, parts_of.py:432-469. -/
def partition {α γ} [DecidableEq γ] (c : α → γ) (p : Parts α) : Option (List (γ × Parts α)) :=
  (classes c p.present).mapM fun x => (filterValues p x.2).map fun r => (x.1, r)

end Verif.Trees
