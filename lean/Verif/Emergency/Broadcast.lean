/-!
# Broadcasting one replica's arrays to all replicas

Models `get_available_memory`, `_globalize_single_replica_arrays`, `_merge_globalized_replicas` and
`broadcast_one_replica_to_all` of `checkpoint/orbax/checkpoint/_src/multihost/multislice.py:171-386`.
-/
namespace Verif.Emergency.Broadcast

/-- The inner loop, `multislice.py:356-362`: take leaves while they fit.  `mem` is `current_memory`. -/
def takeFitting {α : Type} (size : α → Nat) (limit : Int) (mem : Nat) : List α → List α × List α
  | [] => ([], [])
  | x :: xs =>
    if ((mem + size x : Nat) : Int) ≤ limit then
      (x :: (takeFitting size limit (mem + size x) xs).1, (takeFitting size limit (mem + size x) xs).2)
    else ([], x :: xs)

theorem takeFitting_length {α : Type} (size : α → Nat) (limit : Int) (mem : Nat) (l : List α) :
    (takeFitting size limit mem l).2.length ≤ l.length := by
  induction l generalizing mem with
  | nil => simp [takeFitting]
  | cons x xs ih =>
    rw [takeFitting]
    split
    · have := ih (mem + size x)
      simp only [List.length_cons]; omega
    · simp

/-- The outer loop of `broadcast_one_replica_to_all`, `multislice.py:338-382`: the leaves that are
broadcast together.  The limit may be negative (`get_available_memory` subtracts, `:189`). -/
def batches {α : Type} (size : α → Nat) (limit : Int) : List α → List (List α)
  | [] => []
  | x :: xs =>
    if (size x : Int) > limit then [x] :: batches size limit xs
    else
      (x :: (takeFitting size limit (size x) xs).1) ::
        batches size limit (takeFitting size limit (size x) xs).2
termination_by l => l.length
decreasing_by
  all_goals simp only [List.length_cons]
  · omega
  · have := takeFitting_length size limit (size x) xs
    omega

/-- One element of an array: a row per replica, with zeros in the rows of replicas that are not the
source (`multislice.py:241-289`), summed (`:292-307`). -/
def merged {M : Type} (add : M → M → M) (zero : M) (replicas : Nat) (isSource : Nat → Bool)
    (value : Nat → M) : M :=
  ((List.range replicas).map fun r => if isSource r then value r else zero).foldl add zero

/-- Kinds of array elements, as far as `jnp.sum` distinguishes them. -/
inductive DType
  | bool | int8 | int16 | int32 | uint8 | uint16 | uint32 | bfloat16 | float16 | float32
deriving DecidableEq, Repr

/-- The dtype of `jnp.sum(x, axis=0)` for `x` of the given dtype (`multislice.py:304`), with 64-bit types
disabled.  This is JAX's rule, not code of the repository: integers narrower than the default one, and
booleans, are summed in the default integer type. -/
def sumDType : DType → DType
  | .bool => .int32
  | .int8 => .int32
  | .int16 => .int32
  | .uint8 => .uint32
  | .uint16 => .uint32
  | d => d

end Verif.Emergency.Broadcast
