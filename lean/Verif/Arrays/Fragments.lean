import Verif.Arrays.Slices

/-!
# Model of array fragments and their chunking

Models `/repo/checkpoint/orbax/checkpoint/_src/arrays/fragments.py:94-475, 582-587` and
`/repo/checkpoint/orbax/checkpoint/_src/arrays/subchunking.py:220-305`.
An n-dimensional array is a shape and a function from positions (lists of integers) to elements; only
positions within the shape matter.  Basic NumPy slicing and slice assignment are modelled with the slice
semantics of `Slices.lean`.  Simplifications: dtypes are left out; assigning a value whose shape differs from
that of the target is an error (NumPy would also try to broadcast); index arrays have one row per axis.
Exceptions are `none`.
-/

namespace Verif.Arrays

open Slices

/-- A (start, stop, step) row of an `NpIndex`, fragments.py:58. -/
structure Tri where
  start : Int
  stop : Int
  step : Int
deriving DecidableEq, Repr

/-- An n-dimensional array. -/
structure Nd (β : Type) where
  shape : List Nat
  at_ : List Int → β

/-! ### NumPy -/

/-- How an index selects along each axis of a shape: first position, step and number of positions. -/
def axes : List Tri → List Nat → Option (List (Int × Int × Nat))
  | [], shape => some (shape.map fun n => (0, 1, n))
  | _ :: _, [] => none
  | t :: ts, n :: shape => do
    let (a, b, c) ← indices (mk t.start t.stop t.step) n
    let rest ← axes ts shape
    return (a, c, rangeLen a b c) :: rest

/-- The position in the array of a position of the slice. -/
def fromSlice : List (Int × Int × Nat) → List Int → List Int
  | (a, c, _) :: ax, x :: xs => (a + c * x) :: fromSlice ax xs
  | _, _ => []

/-- Whether a position of the array is selected. -/
def isSelected : List (Int × Int × Nat) → List Int → Bool
  | [], [] => true
  | (a, c, len) :: ax, x :: xs =>
    (decide ((x - a) % c = 0) && decide (0 ≤ (x - a) / c) && decide ((x - a) / c < len)) && isSelected ax xs
  | _, _ => false

/-- The position in the slice of a selected position of the array. -/
def toSlice : List (Int × Int × Nat) → List Int → List Int
  | (a, c, _) :: ax, x :: xs => ((x - a) / c) :: toSlice ax xs
  | _, _ => []

/-- `array[index]` for an index of concrete slices. -/
def Nd.slice {β} (a : Nd β) (idx : List Tri) : Option (Nd β) := do
  let ax ← axes idx a.shape
  return { shape := ax.map (·.2.2), at_ := fun i => a.at_ (fromSlice ax i) }

/-- `array[index] = value`. -/
def Nd.assign {β} (a : Nd β) (idx : List Tri) (v : Nd β) : Option (Nd β) := do
  let ax ← axes idx a.shape
  if v.shape = ax.map (·.2.2) then
    some { a with at_ := fun i => if isSelected ax i then v.at_ (toSlice ax i) else a.at_ i }
  else none

/-- All positions of a shape. -/
def positions : List Nat → List (List Int)
  | [] => [[]]
  | n :: shape => (List.range n).flatMap fun x => (positions shape).map (Int.ofNat x :: ·)

/-! ### fragments.py -/

/-- `_GenericFragment`, fragments.py:95-138; an abstract fragment has no value. -/
structure Frag (β : Type) where
  index : List Tri
  value : Option (Nd β)

/-- `_GenericFragment.shape`, fragments.py:156-158. -/
def Frag.shape {β} (f : Frag β) : List Int := f.index.map fun t => sliceLen t.start t.stop t.step

/-- `is_degenerate`, fragments.py:164-166. -/
def Frag.degenerate {β} (f : Frag β) : Bool := f.index.any fun t => t.stop == t.start

/-- The index part of `offset_by`, fragments.py:171-177. -/
def offset (idx : List Tri) (delta : List Int) : List Tri :=
  List.zipWith (fun t d => ⟨t.start + d, t.stop + d, t.step⟩) idx delta

/-- `offset_by`, fragments.py:171-177. -/
def Frag.offsetBy {β} (f : Frag β) (delta : List Int) : Frag β := { f with index := offset f.index delta }

/-- `slice_of_value`, fragments.py:225-237, 275-277 and 320-329. -/
def Frag.sliceOfValue {β} (f : Frag β) (idx : List Tri) : Option (Option (Nd β)) :=
  match f.value with
  | none => some none
  | some v =>
    let g := offset idx (f.index.map fun t => -t.start)
    if g.any (fun t => decide (t.start < 0)) || (List.zipWith (fun (t : Tri) (n : Nat) => decide (t.stop > (n : Int))) g v.shape).any id
    then none
    else (v.slice g).map some

/-- The index `intersect` computes, fragments.py:198-200. -/
def intersection (idx own : List Tri) : List Tri :=
  List.zipWith (fun i t => ⟨max i.start t.start, min i.stop t.stop, i.step⟩) idx own

/-- `intersect`, fragments.py:179-205; `some none` is `None`. -/
def Frag.intersect {β} (f : Frag β) (idx : List Tri) : Option (Option (Frag β)) :=
  if f.index.any (fun t => t.step != 1) || idx.any (fun t => t.step != 1) then none
  else
    let out := intersection idx f.index
    if out.all fun t => decide (t.start < t.stop) then
      (f.sliceOfValue out).map fun v => some { index := out, value := v }
    else some none

/-- `_GenericFragment.slice`, fragments.py:207-223. -/
def Frag.slice {β} (f : Frag β) (idx : List Tri) : Option (Option (Frag β)) :=
  (f.intersect idx).map fun g => g.map fun g => g.offsetBy (idx.map fun t => -t.start)

/-- `_GenericFragments`, fragments.py:352-376. -/
structure Frags (β : Type) where
  shape : List Nat
  fragments : List (Frag β)

/-- `_is_full`, fragments.py:582-587; `none`: a fragment's index does not fit the shape. -/
def Frags.isFull {β} (fs : Frags β) : Option Bool := do
  let axs ← fs.fragments.mapM fun f => axes f.index fs.shape
  return (positions fs.shape).all fun i => axs.any fun ax => isSelected ax i

/-- The assignments of `__array__`, fragments.py:444-446. -/
def assignAll {β} (r : Nd β) : List (Frag β) → Option (Nd β)
  | [] => some r
  | f :: l => do
    let v ← f.value
    let r' ← r.assign f.index v
    assignAll r' l

/-- `__array__`, fragments.py:412-447.  `copy = some false` asks for no copy; `junk` is what `np.empty`
contains. -/
def Frags.toArray {β} (fs : Frags β) (copy : Option Bool) (junk : List Int → β) : Option (Nd β) :=
  if fs.fragments.any fun f => f.value.isNone then none
  else
    let nonDegenerate := fs.fragments.filter fun f => !f.degenerate
    match nonDegenerate.find? fun f => f.shape == fs.shape.map Int.ofNat with
    | some f => f.value
    | none =>
      if copy = some false then none
      else
        match fs.isFull with
        | some true => assignAll { shape := fs.shape, at_ := junk } nonDegenerate
        | _ => none

/-- `_GenericFragments.slice`, fragments.py:449-475, for an `NpIndex`. -/
def Frags.slice {β} (fs : Frags β) (idx : List Tri) : Option (Frags β) :=
  if idx.any fun t => t.step != 1 then none
  else
    let sliced := List.zipWith (fun (n : Nat) t => min (n : Int) t.stop - t.start) fs.shape idx
    if sliced.any fun d => decide (d < 0) then none
    else do
      let frags ← fs.fragments.mapM fun f => f.slice idx
      return { shape := sliced.map Int.toNat, fragments := frags.filterMap id }

/-! ### subchunking.py -/

/-- `itertools.product`. -/
def product {α : Type} : List (List α) → List (List α)
  | [] => [[]]
  | l :: ls => l.flatMap fun x => (product ls).map (x :: ·)

/-- `validate_divisible_shapes`, subchunking.py:220-229; `np.mod(x, 0)` is 0 (with a warning). -/
def divisibleShapes (divided : List Int) (dividing : List Nat) : Bool :=
  divided.length == dividing.length &&
    (List.zipWith (fun (a : Int) (b : Nat) => decide (b = 0 ∨ a % b = 0)) divided dividing).all id

/-- The index of one chunk, subchunking.py:280-283. -/
def chunkIndex (start : List Int) (target : List Nat) : List Tri :=
  List.zipWith (fun s (d : Nat) => ⟨s, s + d, 1⟩) start target

/-- The value of one chunk, subchunking.py:284-292. -/
def chunkValue {β} (f : Frag β) (idx : List Tri) : Option (Option (Nd β)) :=
  match f.value with
  | none => some none
  | some v => (v.slice (offset idx (f.index.map fun t => -t.start))).map some

/-- `chunk_fragment`, subchunking.py:235-296; `range` with a zero step is an exception. -/
def chunkFragment {β} (f : Frag β) (target : List Nat) : Option (List (Frag β)) :=
  if f.shape = target.map Int.ofNat then some [f]
  else if target.length ≠ f.shape.length then none
  else if !divisibleShapes f.shape target then none
  else if target.any (· == 0) then none
  else
    let starts := List.zipWith (fun t (d : Nat) => pyRange t.start t.stop d) f.index target
    (product starts).mapM fun s => do
      let idx := chunkIndex s target
      let v ← chunkValue f idx
      return { index := idx, value := v }

/-- `chunk_fragments`, subchunking.py:299-305. -/
def chunkFragments {β} (fs : Frags β) (target : List Nat) : Option (Frags β) := do
  let l ← fs.fragments.mapM fun f => chunkFragment f target
  return { fs with fragments := l.flatten }

end Verif.Arrays
