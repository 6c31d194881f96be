/-!
# Model of the index utilities

Models `/repo/checkpoint/orbax/checkpoint/_src/arrays/numpy_utils.py`.  The Python semantics relied on
(`slice.indices`, `range`, indexing of one axis) come first.  Integers are unbounded, as in Python.
An index is a tuple of `slice` objects (`types.py:31`, `Index`); `resolve_slice` also accepts plain integers,
so an element of an index is a slice or an integer here.
-/

namespace Verif.Arrays.Slices

/-- A Python `slice` object; `none` is `None`. -/
structure Slice where
  start : Option Int
  stop : Option Int
  step : Option Int
deriving DecidableEq, Repr

/-- An element of an index: a slice, or an integer. -/
inductive Item | slice (s : Slice) | int (x : Int)
deriving DecidableEq, Repr

/-- A concrete slice `slice(a, b, c)`. -/
def mk (a b c : Int) : Slice := ⟨some a, some b, some c⟩

/-! ### Python -/

/-- `slice.indices`: one bound, adjusted to a sequence of length `n`. -/
def adjust (n lower upper x : Int) : Int :=
  if x < 0 then (if x + n < lower then lower else x + n) else (if x > upper then upper else x)

/-- Python `s.indices(n)`; `none`: `ValueError` (zero step). -/
def indices (s : Slice) (n : Nat) : Option (Int × Int × Int) :=
  let step := s.step.getD 1
  if step = 0 then none
  else
    let lower : Int := if step < 0 then -1 else 0
    let upper : Int := if step < 0 then n - 1 else n
    let start := match s.start with
      | none => if step < 0 then upper else lower
      | some x => adjust n lower upper x
    let stop := match s.stop with
      | none => if step < 0 then lower else upper
      | some x => adjust n lower upper x
    some (start, stop, step)

/-- `len(range(a, b, c))`. -/
def rangeLen (a b c : Int) : Nat :=
  if c > 0 then (if a < b then ((b - a - 1) / c + 1).toNat else 0)
  else (if b < a then ((a - b - 1) / (-c) + 1).toNat else 0)

/-- `list(range(a, b, c))`. -/
def pyRange (a b c : Int) : List Int := (List.range (rangeLen a b c)).map fun (k : Nat) => a + c * k

/-- The positions along an axis of length `n` that indexing with a slice selects, in order; `none`: an
exception. -/
def selected (s : Slice) (n : Nat) : Option (List Int) := (indices s n).map fun (a, b, c) => pyRange a b c

/-- The positions that indexing with an element selects; `none`: an exception (`IndexError` for an integer
out of range). -/
def selects (x : Item) (n : Nat) : Option (List Int) :=
  match x with
  | .slice s => selected s n
  | .int x => if 0 ≤ x ∧ x < n then some [x] else if x < 0 ∧ 0 ≤ x + n then some [x + n] else none

/-- The positions selected along every axis of an array of the given shape.  Axes beyond the index are
selected whole; an index longer than the shape is an exception (`IndexError`). -/
def selectsNd : List Item → List Nat → Option (List (List Int))
  | [], shape => some (shape.map fun (n : Nat) => pyRange 0 n 1)
  | _ :: _, [] => none
  | x :: xs, n :: shape => do
    let a ← selects x n
    let rest ← selectsNd xs shape
    return a :: rest

/-! ### numpy_utils.py -/

/-- `int_tuple_from_slice`, numpy_utils.py:28-36; `none`: `ValueError` (not concrete). -/
def intTuple (s : Slice) : Option (Int × Int × Int) :=
  let step := if s.step = some 0 then 1 else s.step.getD 1
  match s.start, s.stop with
  | some a, some b => some (a, b, step)
  | _, _ => none

/-- One element of `resolve_slice`, numpy_utils.py:53-55. -/
def resolve1 (x : Item) (n : Nat) : Option Slice :=
  match x with
  | .slice s => (indices s n).map fun (a, b, c) => mk a b c
  | .int x => some (mk x (x + 1) 1)

/-- `resolve_slice`, numpy_utils.py:39-56 (`Ellipsis` is the empty index); `none`: `ValueError`.  `zip` stops
at the shorter. -/
def resolve : List Item → List Nat → Option (List Slice)
  | x :: xs, n :: shape => do
    let s ← resolve1 x n
    let rest ← resolve xs shape
    return s :: rest
  | _, _ => some []

/-- `to_hashable_index`, numpy_utils.py:59-78; an empty shape is falsy. -/
def toHashable (idx : List Item) (shape : List Nat) : Option (List (Int × Int × Int)) :=
  if shape = [] then
    idx.mapM fun | .slice s => intTuple s | .int _ => none
  else do
    let r ← resolve idx shape
    r.mapM intTuple

/-- `from_hashable_index`, numpy_utils.py:80-81. -/
def fromHashable (h : List (Int × Int × Int)) : List Slice := h.map fun (a, b, c) => mk a b c

/-- One element of `dissolve_slice`, numpy_utils.py:106-109. -/
def dissolve1 (x : Slice) (dim : Nat) : Slice where
  start := if x.start = some 0 then none else x.start
  stop := if x.stop ≠ some (dim : Int) then x.stop else none
  step := if x.step ≠ some 1 then x.step else none

/-- `slice(None)`. -/
def full : Slice := ⟨none, none, none⟩

/-- Removal of trailing `slice(None)`, numpy_utils.py:110-112. -/
def trimFull (l : List Slice) : List Slice := (l.reverse.dropWhile (· == full)).reverse

/-- `dissolve_slice`, numpy_utils.py:84-113 (the empty index stands for `Ellipsis`). -/
def dissolve (xs : List Slice) (shape : List Nat) (preserveRank : Bool) : List Slice :=
  let ys := List.zipWith dissolve1 xs shape
  if preserveRank then ys else trimFull ys

/-- One element of `normalize_slice`, numpy_utils.py:137-144, for a slice without `None`. -/
def normalize1 (a b c : Int) (dim : Nat) : Slice :=
  mk (if a ≥ 0 then a else dim + a) (if b ≥ 0 then b else dim + b) c

/-- One element of `slice_shape`, numpy_utils.py:147-149; `//` rounds down; the step is not zero. -/
def sliceLen (a b c : Int) : Int := (b - a + (c - 1)).fdiv c

end Verif.Arrays.Slices
