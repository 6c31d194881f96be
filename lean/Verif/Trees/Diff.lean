import Verif.Trees.TreeLemmas

/-!
# Model of `tree_difference`

Models `/repo/checkpoint/orbax/checkpoint/_src/tree/structure_utils.py:51-182` with the default `is_leaf`.
The kind of a node stands for its Python type; the children of a node are given with their keys.
`None` inside a result is `DForest.skip`, `None` as the result is `none`.
-/

namespace Verif.Trees

/-- A `Diff`, structure_utils.py:51-53, by the place where it is made: leaves that are not equal (115), nodes of
different types (119; the nodes are kept here instead of their types), sequences of different lengths (129), a key
that is missing on the right (152, 172) or on the left (153, 173). -/
inductive Rep (α : Type) where
  | leaves (a b : α)
  | types (a b : Tree α)
  | lens (a b : Nat)
  | onlyL (t : Tree α)
  | onlyR (t : Tree α)

mutual
/-- The summary of differences: a `Diff`, or a node with summaries of its children. -/
inductive DTree (α : Type) where
  | rep (r : Rep α)
  | node (k : Kind) (f : DForest α)
/-- The children: each is a summary or `None`. -/
inductive DForest (α : Type) where
  | nil
  | skip (k : Key) (r : DForest α)
  | cons (k : Key) (d : DTree α) (r : DForest α)
end

/-- A child of a summary. -/
def DForest.ofOpt {α} (k : Key) (o : Option (DTree α)) (r : DForest α) : DForest α :=
  match o with
  | none => .skip k r
  | some d => .cons k d r

/-- `all(d is None for d in diffs)`. -/
def DForest.allNone {α} : DForest α → Bool
  | .nil => true
  | .skip _ r => r.allNone
  | .cons _ _ _ => false

def DForest.isEmpty {α} : DForest α → Bool
  | .nil => true
  | _ => false

def DForest.append {α} : DForest α → DForest α → DForest α
  | .nil, g => g
  | .skip k r, g => .skip k (r.append g)
  | .cons k d r, g => .cons k d (r.append g)

/-- `diffs.get(k)`. -/
def DForest.get {α} : DForest α → Key → Option (DTree α)
  | .nil, _ => none
  | .skip _ r, k => r.get k
  | .cons k' d r, k => if k' = k then some d else r.get k

/-- `(k, Diff(…)) for k, v in f.items() if k not in g`, structure_utils.py:152-153, 172-173. -/
def missing {α} (mk : Tree α → Rep α) (g : Forest α) : Forest α → DForest α
  | .nil => .nil
  | .cons k t r => if (g.get k).isSome then missing mk g r else .cons k (.rep (mk t)) (missing mk g r)

/-- `unflatten(a_tree_def, [diffs.get(k) for k, _ in a_keys_and_children])`, structure_utils.py:175-177. -/
def align {α} (d : DForest α) : Forest α → DForest α
  | .nil => .nil
  | .cons k _ r => .ofOpt k (d.get k) (align d r)

mutual
/-- `tree_difference`, structure_utils.py:56-182. -/
def Tree.diff {α} (eq : α → α → Bool) : Tree α → Tree α → Option (DTree α)
  | .leaf a, .leaf b => if eq a b then none else some (.rep (.leaves a b))
  | .leaf a, .node k g => some (.rep (.types (.leaf a) (.node k g)))
  | .node k f, .leaf b => some (.rep (.types (.node k f) (.leaf b)))
  | .node k f, .node k' g =>
    if k ≠ k' then some (.rep (.types (.node k f) (.node k' g)))
    else match k with
      | .named _ =>
        let d := f.zipDiff eq g
        if d.allNone then none else some (.node k d)
      | .list =>
        if f.length ≠ g.length then some (.rep (.lens f.length g.length))
        else
          let d := f.zipDiff eq g
          if d.allNone then none else some (.node k d)
      | .tuple =>
        if f.length ≠ g.length then some (.rep (.lens f.length g.length))
        else
          let d := f.zipDiff eq g
          if d.allNone then none else some (.node k d)
      | .dict =>
        let d := ((f.commonDiff eq g).append (missing .onlyL g f)).append (missing .onlyR f g)
        if d.isEmpty then none else some (.node k d)
      | .none =>
        let d := ((f.commonDiff eq g).append (missing .onlyL g f)).append (missing .onlyR f g)
        if d.isEmpty then none else some (.node k (align d f))
      | .custom _ =>
        let d := ((f.commonDiff eq g).append (missing .onlyL g f)).append (missing .onlyR f g)
        if d.isEmpty then none else some (.node k (align d f))
/-- `tree_difference(aa, bb) for aa, bb in zip(a, b)`, structure_utils.py:122-125, 130-133. -/
def Forest.zipDiff {α} (eq : α → α → Bool) : Forest α → Forest α → DForest α
  | .nil, _ => .nil
  | .cons k t r, g => match g with
    | .nil => .nil
    | .cons _ u s => .ofOpt k (t.diff eq u) (r.zipDiff eq s)
/-- The differences of the values of common keys, structure_utils.py:136-151, 156-171. -/
def Forest.commonDiff {α} (eq : α → α → Bool) : Forest α → Forest α → DForest α
  | .nil, _ => .nil
  | .cons k t r, g => match g.get k with
    | none => r.commonDiff eq g
    | some u => match t.diff eq u with
      | none => r.commonDiff eq g
      | some d => .cons k d (r.commonDiff eq g)
end

mutual
/-- The `Diff`s of a summary, with their paths. -/
def DTree.reports {α} : DTree α → List (List Key × Rep α)
  | .rep r => [([], r)]
  | .node _ f => f.reports
def DForest.reports {α} : DForest α → List (List Key × Rep α)
  | .nil => []
  | .skip _ r => r.reports
  | .cons k d r => (d.reports.map fun x => (k :: x.1, x.2)) ++ r.reports
end

end Verif.Trees
