/-!
# Python list idioms used by several models

These mirror the semantics of CPython built-ins that the modelled code uses
(list slicing with a possibly negative bound, `enumerate`-based comprehensions).
They are the part of Python we rely on; they model no file of `/repo` by themselves.
-/

namespace Verif.Py

deriving instance DecidableEq for Except

/-- Python `l[:e]` for an integer bound `e` (negative bounds count from the end, and
bounds are clamped).  In particular `l[:-0]` is `l[:0]`, the empty list. -/
def sliceTo {α : Type} (l : List α) (e : Int) : List α :=
  if e < 0 then l.take ((l.length : Int) + e).toNat else l.take e.toNat

/-- Python `l[s:]` for an integer bound `s`. -/
def sliceFrom {α : Type} (l : List α) (s : Int) : List α :=
  if s < 0 then l.drop ((l.length : Int) + s).toNat else l.drop s.toNat

/-- Python `[x] * n` (empty for `n ≤ 0`). -/
def rep {α : Type} (x : α) (n : Int) : List α := List.replicate n.toNat x

/-- Python `[i for i, val in enumerate(l) if val]`. -/
def trueIndices (l : List Bool) : List Nat :=
  l.zipIdx.filterMap fun p => if p.1 then some p.2 else none

end Verif.Py
