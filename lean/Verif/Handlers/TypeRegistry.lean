/-!
# Model of the type handler registry

Models `/repo/checkpoint/orbax/checkpoint/_src/serialization/type_handler_registry.py:54-148`.  Types `T` and handlers `H` are arbitrary, so are
the matching functions; `sub t u` is `issubclass(t, u)` and `typestr h` is `h.typestr()`.  Exceptions are `none`.  Warnings are left out.
-/

namespace Verif.TypeRegistry

/-- `_TypeHandlerRegistryImpl`, type_handler_registry.py:63-66.  The dictionary of type strings as a function. -/
structure Registry (T H : Type) where
  entries : List ((T → Bool) × H) := []
  strs : String → Option H := fun _ => none

variable {T H : Type}

/-- `self._typestr_registry[handler.typestr()] = handler`. -/
def setStr (m : String → Option H) (s : String) (h : H) : String → Option H := fun x => if x = s then some h else m x

/-- `enumerate` and `break`, type_handler_registry.py:82-88: the first entry whose function accepts the type. -/
def firstMatch (t : T) : List ((T → Bool) × H) → Option Nat
  | [] => none
  | (f, _) :: r => if f t then some 0 else (firstMatch t r).map (· + 1)

/-- `func`, type_handler_registry.py:79-80: the default is `lambda t: issubclass(t, ty)`. -/
def matcher (sub : T → T → Bool) (t : T) (func : Option (T → Bool)) : T → Bool := func.getD fun u => sub u t

/-- `add`, type_handler_registry.py:71-116. -/
def add (sub : T → T → Bool) (typestr : H → String) (r : Registry T H) (t : T) (h : H) (func : Option (T → Bool)) (override : Bool) :
    Option (Registry T H) :=
  match firstMatch t r.entries with
  | none =>
    if (r.strs (typestr h)).isSome && !override then none
    else some ⟨r.entries ++ [(matcher sub t func, h)], setStr r.strs (typestr h) h⟩
  | some i =>
    if override then some ⟨r.entries.set i (matcher sub t func, h), setStr r.strs (typestr h) h⟩
    else none

/-- `get` of a type, type_handler_registry.py:122-126. -/
def get (r : Registry T H) (t : T) : Option H := (r.entries.find? fun x => x.1 t).map (·.2)

/-- `get` of a type string, type_handler_registry.py:119-121. -/
def getStr (r : Registry T H) (s : String) : Option H := r.strs s

/-- `has`, type_handler_registry.py:128-133. -/
def has (r : Registry T H) (t : T) : Bool := (get r t).isSome

/-- A registration. -/
structure Reg (T H : Type) where
  type : T
  handler : H
  func : Option (T → Bool) := none
  override : Bool := false

/-- Registrations in turn; the first that fails raises. -/
def addAll (sub : T → T → Bool) (typestr : H → String) (r : Registry T H) : List (Reg T H) → Option (Registry T H)
  | [] => some r
  | x :: l => (add sub typestr r x.type x.handler x.func x.override).bind fun r' => addAll sub typestr r' l

/-- `create_type_handler_registry` and `__init__`, type_handler_registry.py:57-69, 136-148. -/
def create (sub : T → T → Bool) (typestr : H → String) (l : List (T × H)) : Option (Registry T H) :=
  addAll sub typestr {} (l.map fun x => ⟨x.1, x.2, none, true⟩)

end Verif.TypeRegistry
