import Verif.Trees.Flat

/-!
# Nesting of flat parameters

`unflatten` of checkpoint/orbax/checkpoint/experimental/model_surgery/transformations/nesting.py:26-86, with `from_flat_dict` of
checkpoint/orbax/checkpoint/_src/tree/utils.py:297-359 (with `sep`), here with what becomes of the caller's dictionary.  Exceptions are `none`.
Parameters are arrays, not dictionaries.  The warning about missing keys is left out.
-/

namespace Verif.Trees.Nesting

/-- What a call does: its result, and the caller's dictionary afterwards (nesting.py:64-84). -/
structure Outcome (α : Type) where
  result : Option (Tree α)
  caller : List (Name × Tree α)

/-- The loop over the keys, utils.py:332-349. -/
def loop {α} (sep : Name) (inplace : Bool) : Tree α → List (Name × Tree α) → List (Name × Tree α) → Outcome α
  | t, [], c => ⟨some t, c⟩
  | t, x :: l, c =>
    let c' := if inplace then Assoc.del c x.1 else c
    match (split sep x.1).bind fun p => insertFlat t p x.2 with
    | none => ⟨none, c'⟩
    | some t' => loop sep inplace t' l c'

/-- The values of the target for the keys that are missing, nesting.py:74-82. -/
def withDefaults {α} (flatTarget p : List (Name × Tree α)) : List (Name × Tree α) :=
  flatTarget.foldl (fun p x => if (Assoc.get p x.1).isSome then p else Assoc.put p x.1 x.2) p

/-- `from_flat_dict` with `target` and `sep`, utils.py:350-359. -/
def fromTarget {α} (sep : Name) (inplace : Bool) (p : List (Name × Tree α)) (target : Tree α) : Outcome α :=
  let keys := (toFlatSep sep false target).map (·.1)
  ⟨(keys.mapM (Assoc.get p)).bind (Trees.unflatten target), if inplace then keys.foldl Assoc.del p else p⟩

/-- `unflatten(sep, inplace, target)` applied to one structure of parameters, nesting.py:57-86; `isDict`: it is a `dict`, not another mapping. -/
def unflatten {α} (sep : Name) (inplace : Bool) (target : Option (Tree α)) (isDict : Bool) (p : List (Name × Tree α)) : Outcome α :=
  match target with
  | none => if inplace && !isDict then ⟨none, p⟩ else loop sep inplace emptyDict p p
  | some t =>
    let q := withDefaults (toFlatSep sep false t) p
    if inplace && isDict then fromTarget sep true q t
    else ⟨(fromTarget sep inplace q t).result, p⟩

end Verif.Trees.Nesting
