/-!
# Model of the choice of a chunk shape

Models `/repo/checkpoint/orbax/checkpoint/_src/arrays/subchunking.py:43-217`.  Dimensions are natural numbers
and the item size is positive.  `while` loops take fuel: running out of it is the outcome `diverges`, and a
theorem says that this does not happen.  Simplifications: logging is left out; `math.sqrt` is exact.
-/

namespace Verif.Arrays.ChunkShape

/-- The outcome of a computation: a value, an exception, or no end within the fuel. -/
inductive Out (α : Type) | ok (a : α) | error | diverges
deriving DecidableEq, Repr

def Out.bind {α γ : Type} : Out α → (α → Out γ) → Out γ
  | .ok a, f => f a
  | .error, _ => .error
  | .diverges, _ => .diverges

instance : Monad Out where
  pure := Out.ok
  bind := Out.bind

/-- `_find_divisors`, subchunking.py:43-48: the divisors up to the square root and their cofactors, sorted
without duplicates (all of them are at most `size`). -/
def findDivisors (size : Nat) : List Nat :=
  let sqrtDivs := (List.range (size + 1)).filter fun i => decide (1 ≤ i) && decide (i * i ≤ size) && decide (size % i = 0)
  let l := sqrtDivs ++ (sqrtDivs.map fun div => size / div).reverse
  (List.range (size + 1)).filter fun i => decide (i ∈ l)

/-- The local variables `dim_factors`, `total_elements` and `sharded_dimensions`, subchunking.py:95-104. -/
structure St where
  factors : List (List Nat)
  total : Nat
  sharded : List Bool
deriving DecidableEq, Repr

/-- `reduce_dim`, subchunking.py:106-112. -/
def reduceDim (st : St) (i : Nat) : Out St :=
  match st.factors[i]? with
  | none => .error
  | some f =>
    match f.getLast?, f.dropLast.getLast? with
    | some current, some new =>
      .ok { factors := st.factors.set i f.dropLast, total := st.total / current * new, sharded := st.sharded.set i true }
    | _, _ => .error

/-- The loop on one requested axis, subchunking.py:122-123. -/
def reduceAxis : Nat → Nat → St → Out St
  | 0, _, _ => .diverges
  | fuel + 1, axis, st =>
    match st.factors[axis]? with
    | none => .error
    | some f => if f.length > 1 then (reduceDim st axis).bind (reduceAxis fuel axis) else .ok st

/-- The loop on the requested axes, subchunking.py:121-123. -/
def reduceAxes (fuel : Nat) : List Nat → St → Out St
  | [], st => .ok st
  | a :: l, st => (reduceAxis fuel a st).bind (reduceAxes fuel l)

/-- The current chunk shape, subchunking.py:126, 201. -/
def current (st : St) : Out (List Nat) :=
  match st.factors.mapM fun f => f.getLast? with
  | some l => .ok l
  | none => .error

/-- The sort key of the round robin, subchunking.py:176. -/
def ratio (st : St) (i : Nat) : Nat :=
  match st.factors[i]? with
  | some f => match f.getLast?, f.dropLast.getLast? with
    | some a, some b => a / b
    | _, _ => 0
  | none => 0

/-- `min(candidates, key=…)`: the first with the least key. -/
def minBy (st : St) : Nat → List Nat → Nat
  | best, [] => best
  | best, i :: l => minBy st (if ratio st i < ratio st best then i else best) l

/-- The inner round robin loop, subchunking.py:171-179; the flag is `could_shard`. -/
def roundRobin (target : Nat) : Nat → List Nat → Bool → St → Out (Bool × St)
  | 0, _, _, _ => .diverges
  | fuel + 1, cands, could, st =>
    match cands with
    | [] => .ok (could, st)
    | c :: cs =>
      if st.total > target then
        let d := minBy st c cs
        (reduceDim st d).bind fun st' => roundRobin target fuel (cands.erase d) true st'
      else .ok (could, st)

/-- `candidate_shard_dims`, subchunking.py:164-168. -/
def candidates (shardAxes : List Nat) (st : St) : List Nat :=
  shardAxes.filter fun i =>
    (match st.sharded[i]? with | some b => b | none => false) &&
    (match st.factors[i]? with | some f => decide (f.length > 1) | none => false)

/-- The outer loop on the requested axes, subchunking.py:160-179. -/
def shardLoop (target : Nat) (shardAxes : List Nat) : Nat → St → Out St
  | 0, _ => .diverges
  | fuel + 1, st =>
    if st.total > target then
      (roundRobin target fuel (candidates shardAxes st) false st).bind fun (could, st') =>
        if could then shardLoop target shardAxes fuel st' else .ok st'
    else .ok st

/-- The search for the largest sharded dimension, subchunking.py:187-193: its index (`none` is `-1`) and its
size. -/
def pick : Nat → List (Nat × Bool) → Option Nat × Nat → Option Nat × Nat
  | _, [], best => best
  | i, (size, sharded) :: l, best => pick (i + 1) l (if sharded && decide (size > best.2) then (some i, size) else best)

/-- The greedy loop, subchunking.py:183-199. -/
def greedy (target : Nat) : Nat → St → Out St
  | 0, _ => .diverges
  | fuel + 1, st =>
    if st.total > target then
      match current st with
      | .ok sizes =>
        match pick 0 (sizes.zip st.sharded) (none, 1) with
        | (some d, size) =>
          if size > 1 then (reduceDim st d).bind (greedy target fuel)
          else greedy target fuel { st with sharded := st.sharded.map fun _ => true }
        | (none, _) => greedy target fuel { st with sharded := st.sharded.map fun _ => true }
      | .error => .error
      | .diverges => .diverges
    else .ok st

/-- The state before any reduction, subchunking.py:95-104. -/
def initial (globalShape writeShape : List Nat) : St where
  factors := writeShape.map findDivisors
  total := writeShape.prod
  sharded := List.zipWith (fun g w => g != w) globalShape writeShape

/-- The check of the requested axes, subchunking.py:114. -/
def badAxes (rank : Nat) (shardAxes : List Int) : Bool :=
  shardAxes.any fun a => decide (a < 0) || decide (a ≥ (rank : Int))

/-- From the check of the target size to the end, subchunking.py:125-217. -/
def fitTarget (fuel itemsize : Nat) (targetBytes : Option Nat) (axes : List Nat) (st : St) : Out (List Nat) :=
  match targetBytes with
  | none => current st
  | some target =>
    if target < itemsize then .error
    else
      let targetElements := target / itemsize
      (shardLoop targetElements axes fuel st).bind fun st =>
        (greedy targetElements fuel st).bind current

/-- `choose_chunk_shape`, subchunking.py:51-217. -/
def choose (fuel : Nat) (globalShape writeShape : List Nat) (itemsize : Nat) (targetBytes : Option Nat)
    (shardAxes : List Int) : Out (List Nat) :=
  if globalShape.length ≠ writeShape.length then .error
  else
    let writeShape := writeShape.map fun d => max 1 d
    if targetBytes = none ∧ shardAxes = [] then .ok writeShape
    else if badAxes writeShape.length shardAxes then .error
    else
      let axes := shardAxes.map Int.toNat
      (reduceAxes fuel axes (initial globalShape writeShape)).bind (fitTarget fuel itemsize targetBytes axes)

end Verif.Arrays.ChunkShape
