import Verif.Handlers.Standard

/-!
# Model of the standard leaf handlers of V1: saving options, and loading as an abstract leaf asks

Models `experimental/v1/_src/serialization/options_resolution.py:21-76`, the leaf handlers
`serialization/{array,numpy,scalar,string}_leaf_handler.py`, the choice of the handler in
`handlers/pytree_handler.py:72-92, 138-189, 471-521`, `serialization/compatibility.py:42-44, 288-419` and
`serialization/registry.py:44-81` (all under `/repo/checkpoint/orbax/checkpoint/experimental/v1/_src`), over the
V0 handlers `/repo/checkpoint/orbax/checkpoint/_src/serialization/type_handlers.py:60-265` and
`jax_array_handlers.py:65-77, 955-1006`.

NumPy and Python are the structure `World` of the model of `StandardCheckpointHandler`.  Left out: `bytes`,
random keys, layouts, placeholders (C85), load-and-broadcast (C75), Pathways, chunks (C33, C34, C88) and files
(C107).  The function that gives options to single leaves is pure here; the code calls it twice for each leaf and
the second answer counts.  Exceptions are `none`.
-/

namespace Verif.Handlers.Leaves

open Verif.Arrays (Nd)
open Verif.Handlers.Standard (World PyT convert inside)

/-- A leaf of a tree to save, and a loaded one. -/
inductive Leaf (D E P S : Type)
  /-- Python number -/
  | py (p : P)
  /-- NumPy scalar, `np.number` -/
  | npScalar (d : D) (e : E)
  | np (d : D) (a : Nd E)
  | jax (d : D) (a : Nd E) (s : S)
  | str (t : List Char)
  /-- anything else -/
  | other

/-- `ArrayOptions.Saving.StorageOptions`, context/options.py:371-394. -/
structure Opts (D : Type) where
  dtype : Option D
  chunk : Option Nat
  axes : Option (List Nat)

/-- What `resolve_storage_options` returns; the axes are never `None`. -/
structure Resolved (D : Type) where
  dtype : Option D
  chunk : Option Nat
  axes : List Nat

/-- The part of `ArrayOptions.Saving` that is read here, context/options.py:320-413. -/
structure Saving (K L D : Type) where
  storage : Option (Opts D)
  creator : Option (K → L → Option (Opts D))
  shardingFile : Bool

/-- `resolve_storage_options`, options_resolution.py:43-76. -/
def resolve {K L D : Type} (o : Saving K L D) (k : K) (v : L) : Resolved D :=
  let g : Opts D := match o.storage with | some g => g | none => ⟨none, none, none⟩
  let individual := match o.creator with | some f => f k v | none => none
  match individual with
  | some i =>
    ⟨if i.dtype.isSome then i.dtype else g.dtype, if i.chunk.isSome then i.chunk else g.chunk,
     (if i.axes.isSome then i.axes else g.axes).getD []⟩
  | none => ⟨g.dtype, g.chunk, g.axes.getD []⟩

/-- The standard leaf handlers, by their type strings (registry.py:44-81). -/
inductive Kind | scalar | np | jax | string
deriving DecidableEq, Repr

/-- A saved leaf. -/
inductive Stored (D E S : Type)
  | num (kind : Kind) (d : D) (a : Nd E) (sharding : Option S)
  | text (t : List Char)

variable {D E P S K : Type} [DecidableEq D]

/-- The handler registered for the type of a leaf, registry.py:44-81, 156-169: `bool` is a subclass of `int`,
`np.float64` one of `float`; the other NumPy scalars are of no registered class. -/
def kindOf (w : World D E P S) : Leaf D E P S → Option Kind
  | .py p => if w.tyOf p = .complex then none else some .scalar
  | .npScalar d _ => if d = w.f64 then some .scalar else none
  | .np _ _ => some .np
  | .jax _ _ _ => some .jax
  | .str _ => some .string
  | .other => none

/-- `validate_leaves_handleable`, pytree_handler.py:471-494, for one leaf. -/
def handleable (w : World D E P S) (x : Leaf D E P S) : Bool := (kindOf w x).isSome

/-- Writing an array: `check_array_values`, jax_array_handlers.py:65-77, and the cast of
tensorstore_utils.py:465-484, 593. -/
def write (w : World D E P S) (k : Kind) (dtype : Option D) (d : D) (a : Nd E) (s : Option S) : Option (Stored D E S) :=
  if a.shape.any (· == 0) then none
  else
    let d' := dtype.getD d
    some (.num k d' (if d' = d then a else convert w d d' a) s)

/-- `serialize` of the handler of a leaf with the options of its key, array_leaf_handler.py:117-131, 212-247,
numpy_leaf_handler.py:98-111, type_handlers.py:155-173, 237-245. -/
def saveLeaf (w : World D E P S) (o : Saving K (Leaf D E P S) D) (k : K) (x : Leaf D E P S) : Option (Stored D E S) :=
  match x with
  | .np d a => write w .np (resolve o k x).dtype d a none
  | .jax d a s => write w .jax (resolve o k x).dtype d a (if o.shardingFile && w.recorded s then some s else none)
  | .npScalar d e => if d = w.f64 then write w .scalar (resolve o k x).dtype d ⟨[], fun _ => e⟩ none else none
  | .py p =>
    if w.tyOf p = .complex then none
    else match w.ofPy p with
      | none => none
      | some (d, e) => write w .scalar (resolve o k x).dtype d ⟨[], fun _ => e⟩ none
  | .str t => some (.text t)
  | .other => none

/-- `PyTreeHandler.save`, pytree_handler.py:392-404: the types of all leaves are checked first. -/
def saveTree (w : World D E P S) (o : Saving K (Leaf D E P S) D) (t : List (K × Leaf D E P S)) : Option (List (K × Stored D E S)) :=
  if t.all (fun p => handleable w p.2) then t.mapM fun p => (saveLeaf w o p.1 p.2).map fun y => (p.1, y) else none

/-- An abstract leaf: a value that stands for its type, or the type. -/
inductive Abs (D S : Type)
  | pyVal (t : PyT)
  | pyType (t : PyT)
  | npScalarVal (d : D)
  | npScalarType (d : D)
  /-- an object with `shape` and `dtype`: `np.ndarray`, `NumpyShapeDtype`, the metadata of an `np.ndarray` -/
  | shaped (dtype : Option D) (shape : Option (List Nat))
  | npType
  /-- an object with `shape`, `dtype` and `sharding`: `jax.Array`, `jax.ShapeDtypeStruct`, `ArrayMetadata` -/
  | sharded (dtype : Option D) (shape : Option (List Nat)) (s : Option S)
  | jaxType
  | strVal (t : List Char)
  | strType
  | other

/-- `restore_type`. -/
inductive Want | jaxArray | ndarray | py (t : PyT)
deriving DecidableEq, Repr

/-- `_restore_type_by_abstract_type`, pytree_handler.py:160-189: the classes of NumPy scalars have the attributes
`shape` and `dtype`. -/
def restoreType : Abs D S → Option Want
  | .sharded _ _ _ => some .jaxArray
  | .jaxType => some .jaxArray
  | .shaped _ _ => some .ndarray
  | .npType => some .ndarray
  | .npScalarVal _ => some .ndarray
  | .npScalarType _ => some .ndarray
  | .pyVal t => if t = .complex then none else some (.py t)
  | .pyType t => if t = .complex then none else some (.py t)
  | .strVal _ => none
  | .strType => none
  | .other => none

/-- `validate_abstract_leaves_handleable`, pytree_handler.py:496-521, for one leaf. -/
def absHandleable : Abs D S → Bool
  | .pyVal t => t != .complex
  | .pyType t => t != .complex
  | .other => false
  | _ => true

/-- The handler that loads a leaf: that of the type asked for, else that of the type string of the checkpoint,
base_pytree_checkpoint_handler.py:122-131. -/
def handlerOf (x : Option (Abs D S)) (st : Stored D E S) : Kind :=
  match x.bind restoreType with
  | some .jaxArray => .jax
  | some .ndarray => .np
  | some (.py _) => .scalar
  | none => match st with
    | .num k _ _ _ => k
    | .text _ => .string

/-- `isinstance(value, type)`. -/
def isType : Abs D S → Bool
  | .pyType _ => true
  | .npScalarType _ => true
  | .npType => true
  | .jaxType => true
  | .strType => true
  | _ => false

/-- The type asked for by an abstract leaf in `NumpyLeafHandler`, numpy_leaf_handler.py:136-153: `value.dtype` of an
object without it raises. -/
def numpyDtype : Option (Abs D S) → Option (Option D)
  | none => some none
  | some x =>
    if isType x then some none
    else match x with
      | .npScalarVal d => some (some d)
      | .shaped d _ => some d
      | .sharded d _ _ => some d
      | _ => none

/-- `ArrayRestoreArgs`. -/
structure ArrayArg (D S : Type) where
  dtype : Option D
  sharding : Option S
  shape : Option (List Nat)
  strict : Bool

/-- `_create_v0_restorearg`, array_leaf_handler.py:171-197; another object raises. -/
def arrayArg (pad : Bool) : Option (Abs D S) → Option (ArrayArg D S)
  | none => some ⟨none, none, none, true⟩
  | some x =>
    if isType x then some ⟨none, none, none, true⟩
    else match x with
      | .sharded d g s => some ⟨d, s, g, !pad⟩
      | _ => none

/-- Reading with a target type, tensorstore_utils.py:486-502, 536-541. -/
def openAs (w : World D E P S) (d : D) (a : Nd E) : Option D → D × Nd E
  | none => (d, a)
  | some d' => (d', convert w d d' a)

/-- `_deserialize_shardings`, jax_array_handlers.py:955-1006: the sharding asked for, else that of the file if its
devices exist; a missing one makes the read fail (serialization.py:412-418). -/
def shardingFor (w : World D E P S) (arg stored : Option S) : Option S :=
  match arg with
  | some s => some s
  | none => match stored with
    | some s => if w.available s then some s else none
    | none => none

/-- `ArrayHandler.deserialize`, as far as C88 proves it. -/
def readArray (w : World D E P S) (arg : ArrayArg D S) (d : D) (a : Nd E) (stored : Option S) : Option (Leaf D E P S) :=
  match shardingFor w arg.sharding stored with
  | none => none
  | some s =>
    let r := openAs w d a arg.dtype
    let g := arg.shape.getD a.shape
    if !w.fits s g then none
    else if arg.strict then
      if a.shape = g then some (.jax r.1 r.2 s) else none
    else if a.shape.length = g.length then
      some (.jax r.1 ⟨g, fun i => if inside a.shape i then r.2.at_ i else w.zero r.1⟩ s)
    else none

/-- `ScalarLeafHandler.deserialize` with `ScalarHandler.deserialize`, scalar_leaf_handler.py:108-123,
type_handlers.py:247-264, from the item that was read; `repr` is Python's `str` of a number.  A string that is not
empty is called like a type. -/
def readScalar (w : World D E P S) (repr : P → List Char) (x : Option (Abs D S)) (r : P) : Option (Leaf D E P S) :=
  match x with
  | none => some (.py r)
  | some (.pyVal t) => (w.conv t r).map .py
  | some (.pyType t) => (w.conv t r).map .py
  | some .strType => some (.str (repr r))
  | some (.strVal t) => if t = [] then some (.py r) else none
  | some _ => none

/-- `deserialize` of the chosen handler, compatibility.py:320-375.  A string is not stored as an array and an array
is not stored as a string. -/
def loadLeaf (w : World D E P S) (repr : P → List Char) (pad : Bool) (x : Option (Abs D S)) (st : Stored D E S) : Option (Leaf D E P S) :=
  if !(x.map absHandleable).getD true then none
  else match handlerOf x st, st with
    | .string, .text t => some (.str t)
    | .scalar, .num _ d a _ => if a.shape = [] then readScalar w repr x (w.item d (a.at_ [])) else none
    | .np, .num _ d a _ => (numpyDtype x).map fun dt => .np (openAs w d a dt).1 (openAs w d a dt).2
    | .jax, .num _ d a sh => (arrayArg pad x).bind fun arg => readArray w arg d a sh
    | _, _ => none

/-- V1 metadata of a leaf. -/
inductive Meta (D S : Type)
  | number (t : PyT)
  | array (d : D) (shape : List Nat)
  | sharded (d : D) (shape : List Nat) (s : Option S)
  | text

/-- `metadata` of the leaf handlers, array_leaf_handler.py:281-320, numpy_leaf_handler.py:225-265,
scalar_leaf_handler.py:126-133, 205-251, string_leaf_handler.py:165-181; `isInt` and `isFloat` are
`np.issubdtype(dtype, np.integer)` and `np.issubdtype(dtype, np.floating)`. -/
def metaLeaf (isInt isFloat : D → Bool) : Stored D E S → Option (Meta D S)
  | .num .scalar d _ _ => if isInt d then some (.number .int) else if isFloat d then some (.number .float) else none
  | .num .np d a _ => some (.array d a.shape)
  | .num .jax d a s => some (.sharded d a.shape s)
  | .num .string _ _ _ => none
  | .text _ => some .text

/-- `PyTreeHandler.metadata`, pytree_handler.py:458-469. -/
def metaTree (isInt isFloat : D → Bool) (ckpt : List (K × Stored D E S)) : Option (List (K × Meta D S)) :=
  ckpt.mapM fun p => (metaLeaf isInt isFloat p.2).map fun m => (p.1, m)

/-- Metadata as an abstract leaf: `t(0)`, `NumpyMetadata`, `ArrayMetadata` with its `sharding` property, the string
`'string'`. -/
def metaAbs (w : World D E P S) : Meta D S → Option (Abs D S)
  | .number t => some (.pyVal t)
  | .array d g => some (.shaped (some d) (some g))
  | .sharded d g none => some (.sharded (some d) (some g) none)
  | .sharded d g (some s) => if w.available s then some (.sharded (some d) (some g) (some s)) else none
  | .text => some (.strVal ['s', 't', 'r', 'i', 'n', 'g'])

end Verif.Handlers.Leaves
