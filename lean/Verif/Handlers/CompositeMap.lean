import Verif.Assoc

/-!
# Model of the class `Composite`

Models `/repo/checkpoint/orbax/checkpoint/_src/composite.py`: the arguments and results of calls with several items.

Values are of any type `V`.  `names` is `set(dir(self))` when the constructor has set `_items` (line 54): the attributes and methods of the class and of `object`,
and `_items`.  A dictionary is the list of its entries in the order of insertion.
-/

namespace Verif.CompositeMap

open Verif.Assoc

variable {V : Type}

/-- A `Composite`: `_items`, and the attributes that the constructor set on the instance. -/
structure Comp (V : Type) where
  items : List (String × V)
  attrs : List (String × V)

/-- The loop of the constructor, composite.py:56-65: `none` is a `ValueError`. -/
def setAttrs (names : String → Bool) : List (String × V) → Option (List (String × V))
  | [] => some []
  | (k, v) :: l =>
    if k.toList.take 2 = ['_', '_'] then none
    else (setAttrs names l).map fun a => if names k then a else (k, v) :: a

/-- The constructor, composite.py:51-65. -/
def make (names : String → Bool) (items : List (String × V)) : Option (Comp V) := (setAttrs names items).map fun a => ⟨items, a⟩

/-- `__getitem__`, composite.py:67-72: `none` is a `KeyError`. -/
def getitem (c : Comp V) (k : String) : Option V := Assoc.get c.items k

/-- What reading an attribute gives. -/
inductive Attr (V : Type) where
  | member            -- an attribute or method of the class
  | value (v : V)
  | keyError

/-- `composite.k`: the attributes that were set on the instance hide the methods of the class; then come the names of the class, and then `__getattr__`,
composite.py:80-81. -/
def attr (names : String → Bool) (c : Comp V) (k : String) : Attr V :=
  match Assoc.get c.attrs k with
  | some v => .value v
  | none =>
    if names k then .member
    else match getitem c k with
      | some v => .value v
      | none => .keyError

/-- `get`, composite.py:86-90. -/
def getD (c : Comp V) (k : String) (default : V) : V :=
  match getitem c k with
  | some v => v
  | none => default

/-- `keys()` and iteration, composite.py:74-75, 106-107. -/
def keysOf (c : Comp V) : List String := keys c.items

/-- `__len__`, composite.py:77-78. -/
def len (c : Comp V) : Nat := c.items.length

/-- `in`, composite.py:112-113. -/
def has (c : Comp V) (k : String) : Bool := (Assoc.get c.items k).isSome

/-- The entries of `{key: self._items[key] for key in l}`. -/
def pick (items : List (String × V)) (l : List String) : List (String × V) := l.filterMap fun k => (Assoc.get items k).map fun v => (k, v)

/-- `self & other`, composite.py:92-96: `order` is the order in which the set of the common keys is iterated. -/
def and (names : String → Bool) (order : List String → List String) (a b : Comp V) : Option (Comp V) :=
  make names (pick a.items (order ((keys a.items).filter fun k => (keys b.items).contains k)))

/-- `{**a, **b}`. -/
def merge (a b : List (String × V)) : List (String × V) := b.foldl (fun m p => put m p.1 p.2) a

/-- `self | other`, composite.py:98-101. -/
def or (names : String → Bool) (a b : Comp V) : Option (Comp V) := make names (merge a.items b.items)

/-- `self & other` with a `dict`, composite.py:93-94. -/
def andDict (names : String → Bool) (order : List String → List String) (a : Comp V) (b : List (String × V)) : Option (Comp V) :=
  (make names b).bind fun b => and names order a b

/-- `self | other` with a `dict`, composite.py:99-100. -/
def orDict (names : String → Bool) (a : Comp V) (b : List (String × V)) : Option (Comp V) := (make names b).bind fun b => or names a b

end Verif.CompositeMap
