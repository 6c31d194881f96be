/-!
# Comparing the metadata of values

checkpoint/orbax/checkpoint/_src/metadata/value.py:29-137 and `V0Metadata` of
checkpoint/orbax/checkpoint/experimental/v1/_src/serialization/compatibility.py:46-48.  Shardings, types of elements and stored forms are any values that
can be compared; classes that a user derives are left out.
-/

namespace Verif.Metadata.ValueEq

/-- The classes, value.py:30, 63, 117, 133; compatibility.py:47. -/
inductive Cls | base | array | scalar | string | v0
deriving DecidableEq, Repr

/-- The fields of an object, value.py:40-41, 78-81; compatibility.py:48.  Those that its class lacks are of no account. -/
structure Obj (N S D T V : Type) where
  cls : Cls
  name : N
  directory : N
  shape : List Nat
  sharding : Option S
  dtype : Option D
  storage : Option T
  v1 : V

/-- `isinstance(_, c)` by class, value.py:63, 117, 133; compatibility.py:47. -/
def isSub : Cls → Cls → Bool
  | .scalar, .array => true
  | _, .base => true
  | a, b => decide (a = b)

variable {N S D T V : Type} [DecidableEq N] [DecidableEq S] [DecidableEq D] [DecidableEq T] [DecidableEq V]

/-- `a.__eq__(b)`, value.py:43-44, 83-90, 128-129, 136-137, and the one that `dataclass` makes for compatibility.py:46-48; `none`: `NotImplemented`. -/
def method (a b : Obj N S D T V) : Option Bool :=
  match a.cls with
  | .base => some (isSub b.cls .base)
  | .array => some (isSub b.cls .array && decide (a.shape = b.shape) && decide (a.sharding = b.sharding) && decide (a.dtype = b.dtype)
      && decide (a.storage = b.storage))
  | .scalar => some (isSub b.cls .scalar && decide (a.dtype = b.dtype))
  | .string => some (isSub b.cls .string)
  | .v0 => if b.cls = .v0 then some (decide (a.name = b.name) && decide (a.directory = b.directory) && decide (a.v1 = b.v1)) else none

/-- Python's `a == b` on value.py:29-137: the method of the right side comes first if its class is derived from that of the left.  `same`: they are one
object, which decides if no method does. -/
def eq (same : Bool) (a b : Obj N S D T V) : Bool :=
  if a.cls ≠ b.cls ∧ isSub b.cls a.cls = true then ((method b a).or (method a b)).getD same
  else ((method a b).or (method b a)).getD same

end Verif.Metadata.ValueEq
