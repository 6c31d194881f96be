import Verif.Assoc
import Verif.NameFormat.Model

/-!
# Trees

A Python value seen as a JAX tree: a leaf, or a node of some kind with keyed children.  Models the part of
`jax.tree_util` that the tree utilities of `/repo/checkpoint/orbax/checkpoint/_src/tree` rely on, and
`/repo/checkpoint/orbax/checkpoint/_src/tree/utils.py:55-134`.
Simplifications: the entries of a dictionary are listed in the order in which JAX visits them (Python's
equality of dictionaries ignores the order); dictionary keys are strings or integers; `None` is the node
without children of kind `none`, as in JAX.  Objects have no identity: aliasing is not modelled.
-/

namespace Verif.Trees

abbrev Name := Verif.NameFormat.Name

/-- A dictionary key, or the name of a JAX key. -/
inductive Atom | str (s : Name) | int (i : Int)
deriving DecidableEq, Repr

/-- Python `str(x)`. -/
def Atom.toStr : Atom → Name
  | .str s => s
  | .int i => Verif.NameFormat.showInt i

/-- A JAX key: `SequenceKey`, `DictKey`, `GetAttrKey`, `FlattenedIndexKey`. -/
inductive Key | seq (i : Nat) | dict (k : Atom) | attr (n : Name) | flat (i : Nat)
deriving DecidableEq, Repr

/-- The kinds of internal nodes: `None`, `dict`, `list`, `tuple`, a `NamedTuple` class, a registered class. -/
inductive Kind | none | dict | list | tuple | named (ty : Name) | custom (ty : Name)
deriving DecidableEq, Repr

mutual
/-- A tree with leaves in `α`. -/
inductive Tree (α : Type) where
  | leaf (a : α)
  | node (kind : Kind) (kids : Forest α)
/-- The children of a node, with their keys. -/
inductive Forest (α : Type) where
  | nil
  | cons (k : Key) (t : Tree α) (rest : Forest α)
end

mutual
def Tree.decEq {α} [DecidableEq α] : (a b : Tree α) → Decidable (a = b)
  | .leaf a, .leaf b => if h : a = b then isTrue (by rw [h]) else isFalse (by simp [h])
  | .leaf _, .node _ _ => isFalse (by simp)
  | .node _ _, .leaf _ => isFalse (by simp)
  | .node k f, .node k' f' =>
    if h : k = k' then match Forest.decEq f f' with
      | isTrue h' => isTrue (by rw [h, h'])
      | isFalse h' => isFalse (by simp [h'])
    else isFalse (by simp [h])
def Forest.decEq {α} [DecidableEq α] : (a b : Forest α) → Decidable (a = b)
  | .nil, .nil => isTrue rfl
  | .nil, .cons _ _ _ => isFalse (by simp)
  | .cons _ _ _, .nil => isFalse (by simp)
  | .cons k t r, .cons k' t' r' =>
    if h : k = k' then match Tree.decEq t t' with
      | isTrue h' => match Forest.decEq r r' with
        | isTrue h'' => isTrue (by rw [h, h', h''])
        | isFalse h'' => isFalse (by simp [h''])
      | isFalse h' => isFalse (by simp [h'])
    else isFalse (by simp [h])
end

instance {α} [DecidableEq α] : DecidableEq (Tree α) := Tree.decEq
instance {α} [DecidableEq α] : DecidableEq (Forest α) := Forest.decEq

/-- The children as a list. -/
def Forest.toList {α} : Forest α → List (Key × Tree α)
  | .nil => []
  | .cons k t r => (k, t) :: r.toList

def Forest.ofList {α} : List (Key × Tree α) → Forest α
  | [] => .nil
  | (k, t) :: l => .cons k t (ofList l)

def Forest.isEmpty {α} : Forest α → Bool
  | .nil => true
  | .cons _ _ _ => false

/-- `None`. -/
def Tree.pyNone {α} : Tree α := .node .none .nil

/-- A dictionary with string keys. -/
def dictNode {α} (l : List (Name × Tree α)) : Tree α := .node .dict (.ofList (l.map fun (n, t) => (.dict (.str n), t)))

def enumFrom {α} (i : Nat) : List (Tree α) → Forest α
  | [] => .nil
  | t :: l => .cons (.seq i) t (enumFrom (i + 1) l)

/-- A list. -/
def listNode {α} (l : List (Tree α)) : Tree α := .node .list (enumFrom 0 l)

/-- `is_empty_or_leaf`, utils.py:83-88. -/
def Tree.emptyOrLeaf {α} : Tree α → Bool
  | .leaf _ => true
  | .node _ f => f.isEmpty

/-- `get_key_name`, utils.py:91-102. -/
def Key.name : Key → Atom
  | .seq i => .int i
  | .dict k => .str k.toStr
  | .attr n => .str n
  | .flat i => .int i

/-- `str(get_key_name(k))`, utils.py:105-107. -/
def Key.str (k : Key) : Name := k.name.toStr

/-- `is_dict_key`, utils.py:110-111. -/
def Key.isDict : Key → Bool
  | .dict _ => true
  | .attr _ => true
  | _ => false

/-- `tuple_path_from_keypath`, `str_keypath`, utils.py:105-107, 362-364. -/
def strPath (p : List Key) : List Name := p.map Key.str

mutual
/-- `jax.tree_util.tree_flatten_with_path`, with `is_leaf=is_empty_or_leaf` if `keep`. -/
def Tree.flat {α} (keep : Bool) : Tree α → List (List Key × Tree α)
  | .leaf a => [([], .leaf a)]
  | .node k f => if keep && f.isEmpty then [([], .node k f)] else f.flat keep
def Forest.flat {α} (keep : Bool) : Forest α → List (List Key × Tree α)
  | .nil => []
  | .cons k t r => ((t.flat keep).map fun x => (k :: x.1, x.2)) ++ r.flat keep
end

mutual
/-- `jax.tree_util.tree_map_with_path`, with `is_leaf=is_empty_or_leaf` if `keep`; `none`: an exception. -/
def Tree.mapPath {α β} (keep : Bool) (g : List Key → Option (Tree β)) : List Key → Tree α → Option (Tree β)
  | p, .leaf _ => g p
  | p, .node k f => if keep && f.isEmpty then g p else (f.mapPath keep g p).map (.node k)
def Forest.mapPath {α β} (keep : Bool) (g : List Key → Option (Tree β)) : List Key → Forest α → Option (Forest β)
  | _, .nil => some .nil
  | p, .cons k t r => do
    let t' ← t.mapPath keep g (p ++ [k])
    let r' ← r.mapPath keep g p
    return .cons k t' r'
end

mutual
/-- `jax.tree.unflatten(jax.tree.structure(t), values)`, with the values left over; `none`: too few values. -/
def Tree.fill {α β} : Tree α → List (Tree β) → Option (Tree β × List (Tree β))
  | .leaf _, vs => match vs with
    | [] => none
    | v :: vs => some (v, vs)
  | .node k f, vs => (f.fill vs).map fun x => (.node k x.1, x.2)
def Forest.fill {α β} : Forest α → List (Tree β) → Option (Forest β × List (Tree β))
  | .nil, vs => some (.nil, vs)
  | .cons k t r, vs => do
    let (t', vs') ← t.fill vs
    let (r', vs'') ← r.fill vs'
    return (.cons k t' r', vs'')
end

/-- `jax.tree.unflatten`: an exception unless there is exactly one value per leaf. -/
def unflatten {α β} (t : Tree α) (vs : List (Tree β)) : Option (Tree β) :=
  match t.fill vs with
  | some (t', []) => some t'
  | _ => none

/-- The child with a given key. -/
def Forest.get {α} : Forest α → Key → Option (Tree α)
  | .nil, _ => none
  | .cons k t r, k' => if k = k' then some t else r.get k'

/-- The subtree at a path. -/
def Tree.at_ {α} (t : Tree α) : List Key → Option (Tree α)
  | [] => some t
  | k :: p => match t with
    | .leaf _ => none
    | .node _ f => (f.get k).bind fun c => c.at_ p

end Verif.Trees
