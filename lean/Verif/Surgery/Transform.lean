import Verif.Assoc

/-!
# Model surgery: stacking, fusing, repeating and renaming parameters

Models `/repo/checkpoint/orbax/checkpoint/experimental/model_surgery/transformations/`: `stacking.py`,
`fusing.py`, `repeating.py`, `renaming.py`.

A parameter structure is a flat dictionary (an association list with distinct keys). A regular expression
enters only through what the code computes with it, so it is a function on keys. An array is a shape and a
value at every index.

Simplifications: element types are not modelled (`np.stack` promotes them, the padded path converts to the
type of the first item); an item of another shape than the first is refused (the padded path of the code
broadcasts one that can be); host, device and NumPy arrays compute the same; `device_put` changes no value.
-/
namespace Verif.Surgery
open Verif.Assoc

/-- An array: its shape and its element at each index. -/
structure Arr (α : Type) where
  shape : List Nat
  val : List Nat → α

variable {κ α : Type} [DecidableEq κ]

/-! ## Array functions of NumPy that the transformations call -/

/-- The axis argument of `np.stack` for items of rank `r`: out of range raises, negative counts from the end
of the *result*. -/
def npAxis (r : Nat) (axis : Int) : Option Nat :=
  if 0 ≤ axis ∧ axis ≤ r then some axis.toNat
  else if axis < 0 ∧ 0 ≤ axis + r + 1 then some (axis + r + 1).toNat
  else none

/-- `np.stack(items, axis)`. -/
def npStack (items : List (Arr α)) (axis : Int) : Option (Arr α) :=
  match items with
  | [] => none
  | a :: _ =>
    if items.all (fun b => b.shape == a.shape) then
      (npAxis a.shape.length axis).map fun p =>
        ⟨a.shape.insertIdx p items.length, fun idx => ((items[idx.getD p 0]?).getD a).val (idx.eraseIdx p)⟩
    else none

/-- Where `list.insert(axis, _)` inserts into a list of length `r`: negative counts from the end of the list
*before* insertion; out of range is clamped. -/
def insertPos (r : Nat) (axis : Int) : Nat :=
  if axis < 0 then (axis + r).toNat else min axis.toNat r

/-- `stacked[slices] = val`, where `slices` takes index `i` at position `axis` and everything elsewhere:
`stacking.py` 283-288. -/
def setSlice (out : Arr α) (axis : Int) (i : Nat) (v : Arr α) : Option (Arr α) :=
  let r := out.shape.length
  let pos := if axis < 0 then axis + r else axis
  if pos < 0 ∨ (r : Int) ≤ pos then none
  else
    let p := pos.toNat
    if i < out.shape.getD p 0 ∧ out.shape.eraseIdx p = v.shape then
      some ⟨out.shape, fun idx => if idx[p]? = some i then v.val (idx.eraseIdx p) else out.val idx⟩
    else none

/-- The item of `items` that holds position `n` along `axis`, and the position in it. -/
def locate (axis : Nat) : List (Arr α) → Nat → Option (Arr α × Nat)
  | [], _ => none
  | a :: rest, n => if n < a.shape.getD axis 0 then some (a, n) else locate axis rest (n - a.shape.getD axis 0)

/-- `np.concatenate(items, axis)`; the shapes must agree except along the axis. -/
def npConcat (items : List (Arr α)) (axis : Nat) : Option (Arr α) :=
  match items with
  | [] => none
  | a :: _ =>
    if axis < a.shape.length ∧ items.all (fun b => b.shape.set axis 0 == a.shape.set axis 0) then
      some ⟨a.shape.set axis (items.map fun b => b.shape.getD axis 0).sum, fun idx =>
        match locate axis items (idx.getD axis 0) with
        | some (b, n) => b.val (idx.set axis n)
        | none => a.val idx⟩
    else none

/-- `np.repeat(a, n, axis)`: `repeating.py` 41-49. -/
def repeatVal (a : Arr α) (axis n : Nat) : Option (Arr α) :=
  if axis < a.shape.length then
    some ⟨a.shape.set axis (a.shape.getD axis 0 * n), fun idx => a.val (idx.set axis (idx.getD axis 0 / n))⟩
  else none

/-! ## Stacking -/

/-- The arguments of `stack`, `stacking.py` 101-111. `classify` is what lines 178-197 compute from a key: not
matched, or the base key and the index. `filler` is what lines 238-243 compute from a base key. -/
structure StackCfg (κ α : Type) where
  classify : κ → Option (κ × Nat)
  expected : Option Nat
  axis : Int
  filler : κ → Option α
  inplace : Bool
  sortBySize : Bool
  nbytes : Arr α → Nat

abbrev Group (α : Type) := List (Nat × Arr α)

/-- The loop of `stacking.py` 177-204: unmatched parameters, and the matched ones grouped by base key. A
second value for an index fails the assertion. -/
def collect (classify : κ → Option (κ × Nat)) :
    List (κ × Arr α) → List (κ × Arr α) → List (κ × Group α) → Option (List (κ × Arr α) × List (κ × Group α))
  | [], unmatched, groups => some (unmatched, groups)
  | (k, v) :: rest, unmatched, groups =>
    match classify k with
    | none => collect classify rest (put unmatched k v) groups
    | some (b, i) =>
      let g := (Assoc.get groups b).getD []
      if i ∈ keys g then none
      else collect classify rest unmatched (put groups b (put g i v))

/-- `max(max(idx_dict.keys()) …) + 1`, lines 218-222. -/
def expectedCount (cfg : StackCfg κ α) (groups : List (κ × Group α)) : Nat :=
  match cfg.expected with
  | some n => n
  | none => (groups.map fun g => (g.2.map Prod.fst).foldl max 0).foldl max 0 + 1

/-- The loop of lines 273-288. -/
def fillIn (axis : Int) (count : Nat) : Group α → Arr α → Option (Arr α)
  | [], out => some out
  | (i, v) :: rest, out =>
    if count ≤ i then fillIn axis count rest out
    else match setSlice out axis i v with
      | none => none
      | some out => fillIn axis count rest out

/-- One base key: lines 245-300. The test of line 246 compares sorted distinct keys with a range: a
permutation test. -/
def stackOne (axis : Int) (count : Nat) (filler : Option α) (g : Group α) : Option (Arr α) :=
  match filler with
  | none =>
    if (keys g).isPerm (List.range count) then
      npStack ((List.range count).filterMap fun i => Assoc.get g i) axis
    else none
  | some x =>
    match g with
    | [] => none
    | (_, rep) :: _ =>
      let out : Arr α := ⟨rep.shape.insertIdx (insertPos rep.shape.length axis) count, fun _ => x⟩
      if count < g.length then none else fillIn axis count g out

/-- The loop of lines 234-302. -/
def stackAll (cfg : StackCfg κ α) (count : Nat) :
    List (κ × Group α) → List (κ × Arr α) → Option (List (κ × Arr α))
  | [], result => some result
  | (b, g) :: rest, result =>
    match stackOne cfg.axis count (cfg.filler b) g with
    | none => none
    | some a => stackAll cfg count rest (put result b a)

/-- Sorting by size, lines 224-231: stable and decreasing. -/
def ordered (cfg : StackCfg κ α) (groups : List (κ × Group α)) : List (κ × Group α) :=
  if cfg.sortBySize then
    let size (g : κ × Group α) := (g.2.map fun x => cfg.nbytes x.2).sum
    groups.mergeSort fun x y => decide (size y ≤ size x)
  else groups

/-- What a call of the transformation returns, or that it raises, and what it leaves in the dictionary of
the caller. -/
structure Outcome (κ α : Type) where
  result : Option (List (κ × Arr α))
  caller : List (κ × Arr α)

/-- `transform` of `stack`: lines 159-304. -/
def stack (cfg : StackCfg κ α) (params : List (κ × Arr α)) : Outcome κ α :=
  match collect cfg.classify params [] [] with
  | none => ⟨none, params⟩
  | some (unmatched, groups) =>
    let toDelete := if cfg.inplace then (keys params).filter fun k => (cfg.classify k).isSome else []
    let caller := toDelete.foldl Assoc.del params
    match groups with
    | [] => ⟨some unmatched, caller⟩
    | _ :: _ => ⟨stackAll cfg (expectedCount cfg groups) (ordered cfg groups) unmatched, caller⟩

/-! ## Streaming -/

/-- A block of an array: a start and a stop for every axis; what `make_array_from_callback` passes to the
callback for one shard. -/
abbrev Block := List (Nat × Nat)

/-- `_callback` of `_streaming_stack`, `stacking.py` 58-66, for `axis ≥ 0`: it reads the slice of the
stacking axis and nothing else of the block. -/
def streamShard (items : List (Arr α)) (axis : Nat) (block : Block) : Option (Arr α) :=
  let se := block.getD axis (0, 0)
  npStack ((items.take se.2).drop se.1) axis

/-! ## Fusing -/

/-- `_fuse_keys`, `fusing.py` 42-62. -/
def fuseKeys (result : List (κ × Arr α)) (sources : List κ) (target : κ) (axis : Nat) :
    Option (List (κ × Arr α)) :=
  match sources.mapM (Assoc.get result) with
  | none => none
  | some vals =>
    match npConcat vals axis with
    | none => none
    | some fused =>
      match sources.foldlM (fun d k => if k ∈ keys d then some (Assoc.del d k) else none) result with
      | none => none
      | some d => some (put d target fused)

/-- `fuse_by_keys`, lines 166-187. -/
def fuseByKeys (sources : List κ) (target : κ) (axis : Nat) (params : List (κ × Arr α)) :
    Option (List (κ × Arr α)) :=
  if sources.all (fun k => decide (k ∈ keys params)) then fuseKeys params sources target axis
  else some params

/-- The loop of lines 108-118. `classify` is the fused key and the unique part of a key. -/
def fuseGroups (classify : κ → Option (κ × Nat)) : List κ → List (κ × List (Nat × κ)) → List (κ × List (Nat × κ))
  | [], groups => groups
  | k :: rest, groups =>
    match classify k with
    | none => fuseGroups classify rest groups
    | some (f, p) => fuseGroups classify rest (put groups f (put ((Assoc.get groups f).getD []) p k))

/-- The loop of lines 122-132. Unique parts are numbers here; `parts` is their order. -/
def fuseAll (parts : List Nat) (axis : Nat) :
    List (κ × List (Nat × κ)) → List (κ × Arr α) → Option (List (κ × Arr α))
  | [], result => some result
  | (f, g) :: rest, result =>
    if g.length = parts.length then
      match parts.mapM (Assoc.get g) with
      | none => none
      | some sources =>
        match fuseKeys result sources f axis with
        | none => none
        | some result => fuseAll parts axis rest result
    else fuseAll parts axis rest result

/-- `fuse_by_pattern`, lines 98-134. -/
def fuseByPattern (classify : κ → Option (κ × Nat)) (parts : List Nat) (axis : Nat) (params : List (κ × Arr α)) :
    Option (List (κ × Arr α)) :=
  fuseAll parts axis (fuseGroups classify (keys params) []) params

/-! ## Repeating and renaming -/

/-- `repeat_by_pattern`, `repeating.py` 80-95: each key once. -/
def repeatByPattern (matches? : κ → Bool) (axis n : Nat) : List (κ × Arr α) → Option (List (κ × Arr α))
  | [] => some []
  | (k, v) :: rest =>
    match (if matches? k then repeatVal v axis n else some v), repeatByPattern matches? axis n rest with
    | some v, some rest => some ((k, v) :: rest)
    | _, _ => none

/-- `repeat_by_keys`, `repeating.py` 127-150. -/
def repeatByKeys (axis n : Nat) : List κ → List (κ × Arr α) → Option (List (κ × Arr α))
  | [], result => some result
  | k :: rest, result =>
    match Assoc.get result k with
    | none => repeatByKeys axis n rest result
    | some v =>
      match repeatVal v axis n with
      | none => none
      | some v => repeatByKeys axis n rest (put result k v)

/-- `rename_by_regex`, `renaming.py` 51-65. A rule is the function `pattern.sub(replacement, ·)`. -/
def rename {ν : Type} (rules : List (κ → κ)) (params : List (κ × ν)) : List (κ × ν) :=
  params.foldl (fun result kv => put result (rules.foldl (fun k r => r k) kv.1) kv.2) []

end Verif.Surgery
