import Verif.Handlers.Msgpack

/-!
What is expected of writing a tree with msgpack and reading it back: the same tree, with NumPy arrays for JAX arrays.
-/

namespace Verif.Handlers.Msgpack.Spec

/-- The number of elements of an array of a shape. -/
def count (shape : List Nat) : Nat := shape.foldr (· * ·) 1

/-- An array NumPy can have: of a dtype that its name finds again, with as many elements as its shape says, each of the
size of the dtype, stored with the least significant byte first. -/
structure Plain (sizes : List Char → Option Nat) (a : Arr) : Prop where
  dtype : sizes a.name = some a.item
  positive : 0 < a.item
  native : a.big = false
  simple : a.object = false
  full : a.elems.length = count a.shape
  width : ∀ e ∈ a.elems, e.length = a.item

mutual
/-- All arrays are plain. -/
def Arrays (sizes : List Char → Option Nat) : Tree → Prop
  | .prim _ | .complex _ _ | .custom => True
  | .arr _ a | .scalar a => Plain sizes a
  | .list xs | .tuple xs => ArraysSeq sizes xs
  | .dict d => ArraysDict sizes d
def ArraysSeq (sizes : List Char → Option Nat) : Seq → Prop
  | .nil => True
  | .cons t r => Arrays sizes t ∧ ArraysSeq sizes r
def ArraysDict (sizes : List Char → Option Nat) : Dict → Prop
  | .nil => True
  | .cons _ t r => Arrays sizes t ∧ ArraysDict sizes r
end

mutual
/-- All keys are strings, other than the reserved one. -/
def Keys : Tree → Prop
  | .list xs | .tuple xs => KeysSeq xs
  | .dict d => KeysDict d
  | _ => True
def KeysSeq : Seq → Prop
  | .nil => True
  | .cons t r => Keys t ∧ KeysSeq r
def KeysDict : Dict → Prop
  | .nil => True
  | .cons k t r => (∃ s, k = .str s ∧ s ≠ "__msgpack_chunked_array__".toList) ∧ Keys t ∧ KeysDict r
end

mutual
/-- The tree with NumPy arrays for JAX arrays. -/
def numpy : Tree → Tree
  | .arr _ a => .arr false a
  | .list xs => .list (numpySeq xs)
  | .tuple xs => .tuple (numpySeq xs)
  | .dict d => .dict (numpyDict d)
  | t => t
def numpySeq : Seq → Seq
  | .nil => .nil
  | .cons t r => .cons (numpy t) (numpySeq r)
def numpyDict : Dict → Dict
  | .nil => .nil
  | .cons k t r => .cons k (numpy t) (numpyDict r)
end

/-- The bytes of an array. -/
def bytes (a : Arr) : Nat := a.elems.length * a.item

mutual
/-- No objects of other classes, and no array or scalar takes more than a number of bytes. -/
def Small (limit : Nat) : Tree → Prop
  | .custom => False
  | .arr _ a | .scalar a => bytes a ≤ limit
  | .list xs | .tuple xs => SmallSeq limit xs
  | .dict d => SmallDict limit d
  | _ => True
def SmallSeq (limit : Nat) : Seq → Prop
  | .nil => True
  | .cons t r => Small limit t ∧ SmallSeq limit r
def SmallDict (limit : Nat) : Dict → Prop
  | .nil => True
  | .cons _ t r => Small limit t ∧ SmallDict limit r
end

mutual
/-- As `Small`, but an array that is the whole tree or is only inside dictionaries may be of any size. -/
def SmallInside (limit : Nat) : Tree → Prop
  | .arr _ a => a.item ≤ limit
  | .dict d => SmallInsideDict limit d
  | t => Small limit t
def SmallInsideDict (limit : Nat) : Dict → Prop
  | .nil => True
  | .cons _ t r => SmallInside limit t ∧ SmallInsideDict limit r
end

end Verif.Handlers.Msgpack.Spec
