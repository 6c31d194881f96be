/-!
# Validating an exported model (`orbax.export.validate`)

Models `ValidationManager.validate`, `ValidationJob` and `ValidationReport`
(export/orbax/export/validate/validation_manager.py,
validation_job.py, validation_report.py, validation_utils.py).

Simplifications, for the whole file: floating-point numbers are rational
numbers, NaN or an infinity, and their sums and products are exact.  Latencies,
profiles, `max_diff` and `max_rel_diff` are not modelled: they do not take part
in the status.  The outputs of a model are arrays in a flat dict, a list or
tuple, or one array.
-/

namespace Verif.Export.Validate

/-- A floating-point number. -/
inductive Fl where
  | fin (q : Rat)
  | nan
  | inf (neg : Bool)
  deriving DecidableEq

/-- One output tensor: of a floating type or of another type.  `data` is its
flattened content. -/
inductive Leaf (V : Type) where
  | flt (shape : List Nat) (data : List Fl)
  | disc (shape : List Nat) (data : List V)
  deriving DecidableEq

/-- What a model function returns. -/
inductive Result (V : Type) where
  | dict (items : List (String × Leaf V))
  | seq (leaves : List (Leaf V))
  | array (a : Leaf V)

/-- The exceptions. -/
inductive Err where
  | indexError
  | notIterable
  | length
  | treedef
  | floatSize
  | discreteLength
  | broadcast
  deriving DecidableEq

abbrev Dict (V : Type) := List (String × Leaf V)

/-- Iterating over an array gives its rows (validation_job.py:47, `enumerate`).
A zero-dimensional array is not iterable (`none`). -/
def rows {V : Type} : Leaf V → Option (List (Leaf V))
  | .flt [] _ => none
  | .disc [] _ => none
  | .flt (n :: s) d =>
    some ((List.range n).map fun i =>
      .flt s ((d.drop (i * s.foldr (· * ·) 1)).take (s.foldr (· * ·) 1)))
  | .disc (n :: s) d =>
    some ((List.range n).map fun i =>
      .disc s ((d.drop (i * s.foldr (· * ·) 1)).take (s.foldr (· * ·) 1)))

/-- `output_{i}` (validation_job.py:52). -/
def name (i : Nat) : String := "output_" ++ toString i

/-- The names for a list of outputs, from `i` on (validation_job.py:47-48). -/
def number {V : Type} (i : Nat) : List (Leaf V) → Dict V
  | [] => []
  | x :: xs => (name i, x) :: number (i + 1) xs

/-- `_convert` of `maybe_convert_result_to_dict`
(validation_job.py:44-50). -/
def convert {V : Type} : Result V → Except Err (Dict V)
  | .dict d => .ok d
  | .seq xs => .ok (number 0 xs)
  | .array a =>
    match rows a with
    | none => .error .notIterable
    | some xs => .ok (number 0 xs)

/-- One insertion of the sort by key. -/
def insertKey {V : Type} (x : String × Leaf V) : Dict V → Dict V
  | [] => [x]
  | y :: ys => if x.1 < y.1 then x :: y :: ys else y :: insertKey x ys

/-- `jax.tree_util.tree_flatten` of a flat dict: its items sorted by key. -/
def flatten {V : Type} (d : Dict V) : Dict V := d.foldr insertKey []

/-- `tree_leaves` of the list of outputs. -/
def leaves {V : Type} (os : List (Dict V)) : List (Leaf V) :=
  os.flatMap fun d => (flatten d).map (·.2)

/-- `tree_structure` of the list of outputs: the sorted keys of each. -/
def treedef {V : Type} (os : List (Dict V)) : List (List String) :=
  os.map fun d => (flatten d).map (·.1)

/-- The first group of `split_tf_floating_and_discrete_groups`: all floating
outputs, flattened and concatenated (validation_utils.py:39-44). -/
def floats {V : Type} : List (Leaf V) → List Fl
  | [] => []
  | .flt _ d :: ls => d ++ floats ls
  | .disc _ _ :: ls => floats ls

/-- The second group: the other outputs (validation_utils.py:46). -/
def discretes {V : Type} : List (Leaf V) → List (List Nat × List V)
  | [] => []
  | .flt _ _ :: ls => discretes ls
  | .disc s d :: ls => (s, d) :: discretes ls

/-- The absolute value of a rational number. -/
def absq (q : Rat) : Rat := if 0 ≤ q then q else -q

/-- `np.isclose(x, y, rtol, atol)` with `equal_nan=False`:
`|x - y| <= atol + rtol * |y|` for finite numbers, equality for infinities. -/
def isclose (x y : Fl) (rtol atol : Rat) : Bool :=
  match x, y with
  | .fin a, .fin b => decide (absq (a - b) ≤ atol + rtol * absq b)
  | .inf s, .inf t => s == t
  | _, _ => false

/-- `np.allclose(a, b, rtol, atol)`: in this order
(numpy's signature is `allclose(a, b, rtol=1e-05, atol=1e-08, equal_nan=False)`).
-/
def allclose : List Fl → List Fl → Rat → Rat → Bool
  | x :: xs, y :: ys, rtol, atol => isclose x y rtol atol && allclose xs ys rtol atol
  | _, _, _, _ => true

/-- `ValidationReportOption` (validation_report.py:33-61).  The numbers are not
negative for the tolerances, or the constructor raises. -/
structure Option' where
  atol : Rat
  rtol : Rat
  maxRatio : Rat

/-- `np.all(j != t)` on two tensors (validation_report.py:252).  When the shapes
differ numpy broadcasts them or raises: `bneq` is what it does then. -/
def allDiffer {V : Type} [DecidableEq V]
    (bneq : List Nat × List V → List Nat × List V → Except Err Bool)
    (j t : List Nat × List V) : Except Err Bool :=
  if j.1 = t.1 then .ok ((j.2.zip t.2).all fun p => decide (p.1 ≠ p.2)) else bneq j t

/-- The sum over the zip (validation_report.py:251-253). -/
def mismatches {V : Type} [DecidableEq V]
    (bneq : List Nat × List V → List Nat × List V → Except Err Bool) :
    List (List Nat × List V) → List (List Nat × List V) → Except Err Nat
  | j :: js, t :: ts =>
    match allDiffer bneq j t with
    | .error e => .error e
    | .ok b =>
      match mismatches bneq js ts with
      | .error e => .error e
      | .ok n => .ok ((if b then 1 else 0) + n)
  | _, _ => .ok 0

/-- The part of the report that is used: the status, and the numbers of
discrete outputs and mismatches. -/
structure Report where
  pass : Bool
  mismatches : Nat
  total : Nat
  deriving DecidableEq

/-- The mismatch ratio (validation_report.py:254-258). -/
def ratio (m n : Nat) : Rat := if 0 < n then (m : Rat) / (n : Rat) else 0

/-- `ValidationReport.__init__` (validation_report.py:142-296): the tree
structures are compared, then all floating outputs at once, then the others one
by one.  `np.allclose` is given the absolute tolerance first
(validation_report.py:226-227). -/
def report {V : Type} [DecidableEq V]
    (bneq : List Nat × List V → List Nat × List V → Except Err Bool) (o : Option')
    (base cand : List (Dict V)) : Except Err Report :=
  if treedef base ≠ treedef cand then .error .treedef
  else if (floats (leaves base)).length ≠ (floats (leaves cand)).length then
    .error .floatSize
  else if (discretes (leaves base)).length ≠ (discretes (leaves cand)).length then
    .error .discreteLength
  else
    match mismatches bneq (discretes (leaves base)) (discretes (leaves cand)) with
    | .error e => .error e
    | .ok m =>
      .ok { pass := allclose (floats (leaves cand)) (floats (leaves base)) o.atol o.rtol &&
              decide (ratio m (discretes (leaves base)).length ≤ o.maxRatio),
            mismatches := m, total := (discretes (leaves base)).length }

/-- Converting the results of all inputs (validation_job.py:48). -/
def convertAll {V : Type} : List (Result V) → Except Err (List (Dict V))
  | [] => .ok []
  | r :: rs =>
    match convert r with
    | .error e => .error e
    | .ok d =>
      match convertAll rs with
      | .error e => .error e
      | .ok ds => .ok (d :: ds)

/-- `ValidationManager.validate` for one signature
(validation_manager.py:168-209, 241-274; validation_job.py:86-126): the functions
are run on all inputs (and first on the first one, to warm up), the results
become dicts, the numbers of outputs are compared, and the report is made. -/
def validate {V I : Type} [DecidableEq V]
    (bneq : List Nat × List V → List Nat × List V → Except Err Bool) (o : Option')
    (baseline candidate : I → Result V) (inputs : List I) : Except Err Report :=
  if inputs = [] then .error .indexError
  else
    match convertAll (inputs.map baseline) with
    | .error e => .error e
    | .ok base =>
      match convertAll (inputs.map candidate) with
      | .error e => .error e
      | .ok cand =>
        if (leaves base).length ≠ (leaves cand).length then .error .length
        else report bneq o base cand

end Verif.Export.Validate
