/-!
# Default values of inputs and auto-batching (`orbax.export.utils`)

Models `_get_defaults`, `with_default_args`, `_repeat_to_batch` and
`make_auto_batching_function` (export/orbax/export/utils.py:138-343).

Simplifications, for the whole file: a PyTree is its structure and its leaves in
order; the checks that `tf.function` makes of shapes and types against the
signature are not modelled; the parameters are positional-or-keyword, as those of
a Python function with named parameters.
-/

namespace Verif.Export.Signature

/-- A leaf of a signature: `tf.TensorSpec`, or `TensorSpecWithDefault` with its
default value and `is_primary` (utils.py:41-96). -/
inductive Spec (X : Type) where
  | tensor
  | withDefault (value : X) (primary : Bool)

/-- A PyTree. -/
structure Tree (T X : Type) where
  td : T
  leaves : List X

/-- One parameter of the function, with its part of `input_signature`. -/
structure Param (T X : Type) where
  name : String
  spec : Tree T (Spec X)

/-- The exceptions. -/
inductive Err where
  | mixed
  | order
  | tooMany
  | multiple
  | unexpected
  | missing
  | noPrimary
  | structure
  | primarySize
  | size
  deriving DecidableEq

/-- `isinstance(x, TensorSpecWithDefault)`. -/
def hasDefault {X : Type} : Spec X → Bool
  | .tensor => false
  | .withDefault _ _ => true

/-- `x.default_val` of the leaves. -/
def values {X : Type} : List (Spec X) → List X
  | [] => []
  | .tensor :: ls => values ls
  | .withDefault v _ :: ls => v :: values ls

/-- `_get_defaults` for one parameter (utils.py:141-153). -/
def getDefault {T X : Type} (s : Tree T (Spec X)) : Except Err (Option (Tree T X)) :=
  if !s.leaves.any hasDefault then .ok none
  else if s.leaves.any (fun l => !hasDefault l) then .error .mixed
  else .ok (some ⟨s.td, values s.leaves⟩)

/-- `_get_defaults` (utils.py:138-154). -/
def getDefaults {T X : Type} : List (Param T X) → Except Err (List (String × Option (Tree T X)))
  | [] => .ok []
  | p :: ps =>
    match getDefault p.spec with
    | .error e => .error e
    | .ok d =>
      match getDefaults ps with
      | .error e => .error e
      | .ok ds => .ok ((p.name, d) :: ds)

/-- The check of `inspect.Signature(parameters)`: a parameter without default
after one with a default is refused. -/
def orderOk {D : Type} : Bool → List (String × Option D) → Bool
  | _, [] => true
  | seen, (_, none) :: ps => !seen && orderOk seen ps
  | _, (_, some _) :: ps => orderOk true ps

/-- `with_default_args` (utils.py:198-234): the parameters of the new function
with their defaults. -/
def withDefaultArgs {T X : Type} (sig : List (Param T X)) :
    Except Err (List (String × Option (Tree T X))) :=
  match getDefaults sig with
  | .error e => .error e
  | .ok ds =>
    if ds.all (fun d => d.2.isNone) then .ok ds
    else if orderOk false ds then .ok ds
    else .error .order

/-- `Signature.bind(*args, **kwargs)` and `apply_defaults()`
(utils.py:222-223). -/
def bindArgs {D : Type} : List (String × Option D) → List D → List (String × D) →
    Except Err (List D)
  | [], _ :: _, _ => .error .tooMany
  | [], [], [] => .ok []
  | [], [], _ :: _ => .error .unexpected
  | (n, _) :: ps, x :: xs, kw =>
    if (kw.lookup n).isSome then .error .multiple
    else
      match bindArgs ps xs kw with
      | .error e => .error e
      | .ok vs => .ok (x :: vs)
  | (n, d) :: ps, [], kw =>
    match kw.lookup n with
    | some x =>
      match bindArgs ps [] (kw.filter fun p => p.1 != n) with
      | .error e => .error e
      | .ok vs => .ok (x :: vs)
    | none =>
      match d with
      | none => .error .missing
      | some v =>
        match bindArgs ps [] kw with
        | .error e => .error e
        | .ok vs => .ok (v :: vs)

/-- A call of the function made by `with_default_args` (utils.py:221-224). -/
def callWithDefaults {T X Y : Type} (f : List (Tree T X) → Except Err Y)
    (ps : List (String × Option (Tree T X))) (args : List (Tree T X))
    (kwargs : List (String × Tree T X)) : Except Err Y :=
  match bindArgs ps args kwargs with
  | .error e => .error e
  | .ok vs => f vs

/-- `isinstance(x, tf.TensorSpec) or x.is_primary` (utils.py:299-301). -/
def isPrimary {X : Type} : Spec X → Bool
  | .tensor => true
  | .withDefault _ p => p

/-- The batch size of the first primary tensor (utils.py:321-326). -/
def batchSize {R : Type} : List Bool → List (List R) → Option Nat
  | true :: _, x :: _ => some x.length
  | false :: ps, _ :: xs => batchSize ps xs
  | _, _ => none

/-- `_repeat_to_batch` (utils.py:243-259). -/
def repeatToBatch {R : Type} (x : List R) (b : Nat) : Except Err (List R) :=
  if x.length = 1 then .ok (x.flatMap fun r => List.replicate b r)
  else if x.length = b then .ok x
  else .error .size

/-- The loop over the tensors (utils.py:328-341). -/
def batched {R : Type} (b : Nat) : List Bool → List (List R) → Except Err (List (List R))
  | p :: ps, x :: xs =>
    let y : Except Err (List R) :=
      if p then if b = x.length then .ok x else .error .primarySize
      else repeatToBatch x b
    match y with
    | .error e => .error e
    | .ok y =>
      match batched b ps xs with
      | .error e => .error e
      | .ok ys => .ok (y :: ys)
  | _, _ => .ok []

/-- `auto_batching_fn` (utils.py:317-342).  A tensor is the list of its rows.
The result has the structure of the arguments: only its leaves are given. -/
def autoBatch {T R : Type} [DecidableEq T] (sig : List (Tree T (Spec (List R))))
    (args : List (Tree T (List R))) : Except Err (List (List R)) :=
  if args.map (fun a => (a.td, a.leaves.length)) ≠ sig.map (fun s => (s.td, s.leaves.length)) then
    .error .structure
  else
    let prims := (sig.flatMap (·.leaves)).map isPrimary
    let flat := args.flatMap (·.leaves)
    match batchSize prims flat with
    | none => .error .noPrimary
    | some b => batched b prims flat

/-- `make_auto_batching_function` (utils.py:298-315, 343) and a call of its
result. -/
def autoBatchingCall {T R : Type} [DecidableEq T] (sig : List (Param T (List R)))
    (args : List (Tree T (List R))) (kwargs : List (String × Tree T (List R))) :
    Except Err (List (List R)) :=
  if !((sig.flatMap (·.spec.leaves)).any isPrimary) then .error .noPrimary
  else
    match withDefaultArgs sig with
    | .error e => .error e
    | .ok ps => callWithDefaults (autoBatch (sig.map (·.spec))) ps args kwargs

end Verif.Export.Signature
