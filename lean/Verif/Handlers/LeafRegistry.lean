import Verif.Handlers.TypeRegistry

/-!
The registry of leaf handlers.

Modelled code: checkpoint/orbax/checkpoint/experimental/v1/_src/serialization/registry.py:84-432 and
checkpoint/orbax/checkpoint/experimental/v1/_src/serialization/compatibility.py:423-460. Leaf types `T`, abstract types `A`
and handler classes `H` are arbitrary; `sub` is `issubclass` for leaf types, `asub` is `_is_abstract_subprotocol`, and
`name` is the place of the name of a handler class in the alphabet. Exceptions are `none`. Not modelled: types for which
`issubclass` raises, logging, and constructing the handlers from the context.
-/

namespace Verif.LeafRegistry

variable {T A H : Type}

/-- `_Registration`, registry.py:84-108. -/
structure Entry (T A H : Type) where
  leaf : T
  abs : A
  handler : H
  typestrs : List String
  leafScore : Nat := 0
  absScore : Nat := 0

/-- What the registry is made for. -/
structure Classes (T A H : Type) where
  sub : T → T → Bool
  asub : A → A → Bool
  name : H → Nat

section
variable [DecidableEq T] [DecidableEq A] [DecidableEq H] (c : Classes T A H)

/-- `_recalculate_specificity_scores`, registry.py:341-365. -/
def rescore (l : List (Entry T A H)) : List (Entry T A H) :=
  l.map fun e => { e with
    leafScore := l.countP fun o => e.leaf ≠ o.leaf && c.sub e.leaf o.leaf
    absScore := l.countP fun o => e.abs ≠ o.abs && c.asub e.abs o.abs }

/-- Python's stable sort by a key. -/
def insert (le : Entry T A H → Entry T A H → Bool) (x : Entry T A H) : List (Entry T A H) → List (Entry T A H)
  | [] => [x]
  | y :: l => if le x y then x :: y :: l else y :: insert le x l

def sort (le : Entry T A H → Entry T A H → Bool) : List (Entry T A H) → List (Entry T A H)
  | [] => []
  | x :: l => insert le x (sort le l)

/-- The key `(leaf_specificity_score, abstract_specificity_score, handler_type.__name__)`, registry.py:333-339. -/
def keyLe (x y : Entry T A H) : Bool :=
  x.leafScore < y.leafScore || (x.leafScore == y.leafScore &&
    (x.absScore < y.absScore || (x.absScore == y.absScore && c.name x.handler ≤ c.name y.handler)))

/-- `e.leaf_type == leaf_type`, or an equal abstract type with another handler, registry.py:288-290 and 303-314. -/
def conflict (t : T) (a : A) (h : H) (e : Entry T A H) : Bool := e.leaf = t || (e.abs = a && e.handler ≠ h)

/-- `add`, registry.py:226-339. -/
def add (r : List (Entry T A H)) (t : T) (a : A) (h : H) (override : Bool) (strs : List String) : Option (List (Entry T A H)) :=
  if r.any fun e => e.leaf = t && e.abs = a && e.handler = h then
    some (if override then r.map fun e => if e.leaf = t && e.abs = a && e.handler = h then { e with typestrs := strs } else e else r)
  else if !override && r.any (conflict t a h) then none
  else some (sort (keyLe c) (rescore c ((r.filter fun e => !conflict t a h e) ++ [⟨t, a, h, strs, 0, 0⟩])))

/-- `_try_get`, registry.py:156-168. -/
def get (r : List (Entry T A H)) (t : T) : Option H := (r.reverse.find? fun e => c.sub t e.leaf).map (·.handler)

/-- `_try_get_abstract`, registry.py:180-194. -/
def getAbstract (r : List (Entry T A H)) (a : A) : Option H :=
  ((sort (fun x y => x.absScore ≤ y.absScore) r).reverse.find? fun e => c.asub a e.abs).map (·.handler)

/-- `is_handleable`, registry.py:367-379. -/
def isHandleable (r : List (Entry T A H)) (t : T) : Bool := (get c r t).isSome

/-- `get_secondary_typestrs`, registry.py:395-401. -/
def secondary (r : List (Entry T A H)) (h : H) : List String := ((r.find? fun e => e.handler = h).map (·.typestrs)).getD []

/-- The type string of a handler in the V0 registry, compatibility.py:451-452: `own` is that of the class. -/
def typestr (own : H → String) (r : List (Entry T A H)) (h : H) : String := ((secondary r h).head?).getD (own h)

/-- `get_v0_type_handler_registry`, compatibility.py:423-460. -/
def toV0 (own : H → String) (r : List (Entry T A H)) : Option (TypeRegistry.Registry T H) :=
  TypeRegistry.create c.sub (typestr own r) (r.reverse.map fun e => (e.leaf, e.handler))

/-- One call of `add`. -/
structure Call (T A H : Type) where
  leaf : T
  abs : A
  handler : H
  override : Bool := false
  typestrs : List String := []

/-- Calls in turn; the ones that raise change nothing. -/
def addAll (r : List (Entry T A H)) : List (Call T A H) → List (Entry T A H)
  | [] => r
  | x :: l => addAll ((add c r x.leaf x.abs x.handler x.override x.typestrs).getD r) l

end

/-! ### The standard registry -/

inductive Py where
  | jaxArray | ndarray | int | float | bytes | str | bool | npInt32 | npFloat32 | npFloat64
deriving DecidableEq

/-- `issubclass` for the classes of Python, NumPy and JAX. -/
def pySub : Py → Py → Bool
  | .bool, .int => true
  | .npFloat64, .float => true
  | a, b => a = b

inductive Handler where
  | array | numpy | scalar | string
deriving DecidableEq

/-- `STANDARD_TYPE_AND_ABSTRACT_TYPE_AND_TYPESTR_TO_HANDLER`, registry.py:44-81. The abstract types of arrays are named after
the array type. -/
def standardCalls : List (Call Py Py Handler) :=
  [⟨.jaxArray, .jaxArray, .array, false, ["jax.Array"]⟩, ⟨.ndarray, .ndarray, .numpy, false, ["np.ndarray"]⟩,
   ⟨.int, .int, .scalar, false, ["scalar"]⟩, ⟨.float, .float, .scalar, false, ["scalar"]⟩,
   ⟨.bytes, .bytes, .scalar, false, ["scalar"]⟩, ⟨.str, .str, .string, false, ["string"]⟩]

/-- `AbstractShardedArray` has all members of `AbstractArray`. -/
def pyAsub : Py → Py → Bool
  | .jaxArray, .ndarray => true
  | a, b => pySub a b

def pyClasses : Classes Py Py Handler :=
  ⟨pySub, pyAsub, fun | .array => 0 | .numpy => 1 | .scalar => 2 | .string => 3⟩

/-- `StandardLeafHandlerRegistry`, registry.py:424-432. -/
def standard : List (Entry Py Py Handler) := addAll pyClasses [] standardCalls

end Verif.LeafRegistry
