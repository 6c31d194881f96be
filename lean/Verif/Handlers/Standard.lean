import Verif.Arrays.Fragments

/-!
# Model of saving and restoring leaves with `StandardCheckpointHandler`

Models `/repo/checkpoint/orbax/checkpoint/_src/handlers/standard_checkpoint_handler.py:112-145, 200-264, 305-395`,
`/repo/checkpoint/orbax/checkpoint/checkpoint_utils.py:39, 446-591`, the handlers of
`/repo/checkpoint/orbax/checkpoint/_src/serialization/type_handlers.py:60-306` with the default registry
(`type_handler_registry.py:161-177`) and, for `jax.Array`, what C88 proves about reading.

A tree is the list of its leaves with their key paths.  NumPy and Python are the structure `World`: element
values `E` with types `D`, Python numbers `P`, shardings `S`.  Left out: random keys, layouts, strings (the
handler refuses them), empty nodes, placeholders and the files themselves.  Exceptions are `none`.
-/

namespace Verif.Handlers.Standard

open Verif.Arrays (Nd)

/-- Python number types. -/
inductive PyT | int | float | bool | complex
deriving DecidableEq, Repr

/-- What the code relies on from Python, NumPy and JAX. -/
structure World (D E P S : Type) where
  /-- conversion of an element from a type to another -/
  cast : D → D → E → E
  zero : D → E
  /-- `ndarray.item` -/
  item : D → E → P
  /-- `np.asarray` of a number; `none` if the result cannot be stored (a Python integer beyond 64 bits) -/
  ofPy : P → Option (D × E)
  tyOf : P → PyT
  /-- `int(x)`, `float(x)`, ...; `none` if it raises -/
  conv : PyT → P → Option P
  /-- `type(dtype.type(0).item())` -/
  pyOf : D → PyT
  /-- `np.float64` and its constructor -/
  f64 : D
  toF64 : P → Option E
  /-- whether metadata is kept for the sharding -/
  recorded : S → Bool
  /-- whether the devices of a sharding exist now -/
  available : S → Bool
  /-- whether arrays of a shape can be split so -/
  fits : S → List Nat → Bool

variable {D E P S : Type} [DecidableEq D]

/-- A leaf of a tree to save, and a restored one. -/
inductive Leaf (D E P S : Type)
  /-- Python number -/
  | py (p : P)
  /-- NumPy scalar -/
  | npScalar (d : D) (e : E)
  /-- `np.ndarray`, or a subclass of it -/
  | np (sub : Bool) (d : D) (a : Nd E)
  | jax (d : D) (a : Nd E) (s : S)
  /-- another object that converts to an array (`__array__`) -/
  | arrayLike (d : D) (a : Nd E)
  /-- anything else, for example a string -/
  | other

/-- `SaveArgs`, as far as they matter here. -/
structure SaveArg (D : Type) where
  aggregate : Bool
  dtype : Option D

/-- The handler that saved a leaf, and its metadata type. -/
inductive Kind | scalar | np | jax
deriving DecidableEq, Repr

/-- A saved leaf. -/
structure Stored (D E S : Type) where
  kind : Kind
  d : D
  a : Nd E
  sharding : Option S

/-- Elements converted. -/
def convert (w : World D E P S) (d d' : D) (a : Nd E) : Nd E := ⟨a.shape, fun i => w.cast d d' (a.at_ i)⟩

/-- Writing an array: `check_array_values`, jax_array_handlers.py:65-77, and the cast of
tensorstore_utils.py:462-484, 593. -/
def write (w : World D E P S) (kind : Kind) (arg : Option (SaveArg D)) (d : D) (a : Nd E) (s : Option S) : Option (Stored D E S) :=
  if a.shape.any (· == 0) then none
  else
    let d' := (arg.bind (·.dtype)).getD d
    some ⟨kind, d', if d' = d then a else convert w d d' a, s⟩

/-- `_validate_save_state` for one leaf, standard_checkpoint_handler.py:127-139, and `serialize` of the handler
for its type, type_handlers.py:159-180, 287-297. -/
def saveLeaf (w : World D E P S) (arg : Option (SaveArg D)) (x : Leaf D E P S) : Option (Stored D E S) :=
  if (arg.map (·.aggregate)).getD false then none
  else match x with
    | .np _ d a => write w .np arg d a none
    | .jax d a s => write w .jax arg d a (if w.recorded s then some s else none)
    | .npScalar d e => write w .np arg d ⟨[], fun _ => e⟩ none
    | .arrayLike d a => write w .np arg d a none
    | .py p => match w.tyOf p with
      | .complex => none
      | _ => (w.ofPy p).bind fun r => write w .scalar arg r.1 ⟨[], fun _ => r.2⟩ none
    | .other => none

/-- `async_save`, standard_checkpoint_handler.py:164-209, for a tree that is not a single array or number. -/
def save (w : World D E P S) (args : String → Option (SaveArg D)) (t : List (String × Leaf D E P S)) :
    Option (List (String × Stored D E S)) :=
  t.mapM fun (k, x) => (saveLeaf w (args k) x).map fun y => (k, y)

/-- A leaf of a target tree: real values, `jax.ShapeDtypeStruct`, metadata of a leaf. -/
inductive Target (D S : Type)
  | py (t : PyT)
  | npScalar (d : D)
  | np (d : D) (shape : List Nat)
  | jax (d : D) (shape : List Nat) (s : S)
  | struct (d : D) (shape : List Nat) (s : Option S)
  | metadata
  | other

/-- `_validate_restore_state`, standard_checkpoint_handler.py:143-151, with `STANDARD_ARRAY_TYPES`,
checkpoint_utils.py:39.  `np.float64` is a subclass of `float`, `bool` one of `int`. -/
def accepted (w : World D E P S) : Target D S → Bool
  | .py .complex => false
  | .py _ => true
  | .npScalar d => decide (d = w.f64)
  | .np _ _ => true
  | .jax _ _ _ => true
  | .struct _ _ _ => true
  | .metadata => false
  | .other => false

/-- The type asked for in `RestoreArgs`. -/
inductive Want | py (t : PyT) | f64 | ndarray
deriving DecidableEq, Repr

/-- `RestoreArgs` and `ArrayRestoreArgs`. -/
inductive RArg (D S : Type)
  | plain (ty : Want) (dtype : Option D)
  | array (s : S) (shape : List Nat) (dtype : D) (strict : Bool)

/-- `_get_sharding_from_metadata_leaf`, standard_checkpoint_handler.py:333-348: outer `none` raises. -/
def metaSharding (w : World D E P S) (fallback : Option S) (st : Stored D E S) : Option (Option S) :=
  match st.kind, st.sharding with
  | .jax, some s => if w.available s then some (some s) else fallback.map some
  | _, _ => some none

/-- `_get_sharding_for_target_leaf`, standard_checkpoint_handler.py:350-385: outer `none` raises. -/
def targetSharding (w : World D E P S) (fallback : Option S) (st : Option (Stored D E S)) : Target D S → Option (Option S)
  | .jax _ _ s => some (some s)
  | .struct _ _ (some s) => some (some s)
  | .struct _ _ none => st.bind (metaSharding w fallback)
  | _ => some none

/-- `construct_restore_args` for a leaf of a target, checkpoint_utils.py:521-566. -/
def restoreArg (sharding : Option S) : Target D S → Option (RArg D S)
  | .struct d shape _ => match sharding with
    | none => some (.plain .ndarray (some d))
    | some s => some (.array s shape d true)
  | .np d _ => some (.plain .ndarray (some d))
  | .jax d shape s => some (.array (sharding.getD s) shape d true)
  | .py t => some (.plain (.py t) none)
  | .npScalar _ => some (.plain .f64 none)
  | .metadata => none
  | .other => none

/-- The same for metadata, checkpoint_utils.py:536-551. -/
def metaArg (w : World D E P S) (sharding : Option S) (st : Stored D E S) : RArg D S :=
  match st.kind, sharding with
  | .scalar, _ => .plain (.py (w.pyOf st.d)) (some st.d)
  | _, none => .plain .ndarray (some st.d)
  | _, some s => .array s st.a.shape st.d true

/-- `_replace_strict`, standard_checkpoint_handler.py:246-256. -/
def setStrict (strict : Bool) : RArg D S → RArg D S
  | .array s g d st => .array s g d (if strict then st else false)
  | a => a

/-- Whether a position belongs to an array of the shape. -/
def inside : List Nat → List Int → Bool
  | [], [] => true
  | n :: shape, x :: i => decide (0 ≤ x) && decide (x < n) && inside shape i
  | _, _ => false

/-- Opening with a target type, tensorstore_utils.py:536-541, 486-502. -/
def openAs (w : World D E P S) (st : Stored D E S) (dtype : Option D) : D × Nd E :=
  match dtype with
  | none => (st.d, st.a)
  | some d => (d, convert w st.d d st.a)

/-- `deserialize` of the handler for the type asked for: `NumpyHandler` (type_handlers.py:182-228),
`ScalarHandler` (type_handlers.py:261-280) and `ArrayHandler` (C88). -/
def readLeaf (w : World D E P S) (st : Stored D E S) : RArg D S → Option (Leaf D E P S)
  | .plain .ndarray dtype => some (.np false (openAs w st dtype).1 (openAs w st dtype).2)
  | .plain (.py t) dtype =>
    if st.a.shape = [] then (w.conv t (w.item (openAs w st dtype).1 ((openAs w st dtype).2.at_ []))).map .py else none
  | .plain .f64 dtype =>
    if st.a.shape = [] then (w.toF64 (w.item (openAs w st dtype).1 ((openAs w st dtype).2.at_ []))).map (.npScalar w.f64) else none
  | .array s g d strict =>
    if !w.fits s g then none
    else if strict then
      if st.a.shape = g then some (.jax d (convert w st.d d st.a) s) else none
    else if st.a.shape.length = g.length then
      some (.jax d ⟨g, fun i => if inside st.a.shape i then w.cast st.d d (st.a.at_ i) else w.zero d⟩ s)
    else none

/-- Restoring with a target, standard_checkpoint_handler.py:223-264; the structures must be the same
(base_pytree_checkpoint_handler.py:1037-1060). -/
def restoreTo (w : World D E P S) (fallback : Option S) (strict : Bool) (ckpt : List (String × Stored D E S))
    (target : List (String × Target D S)) : Option (List (String × Leaf D E P S)) :=
  if !target.all (fun p => accepted w p.2) then none
  else
    (target.mapM fun (k, x) => (targetSharding w fallback (ckpt.lookup k) x).bind fun s => (restoreArg s x).map fun a => (k, a)).bind fun args =>
      if !(target.all (fun p => (ckpt.lookup p.1).isSome) && ckpt.all (fun p => (target.lookup p.1).isSome)) then none
      else args.mapM fun (k, a) => (ckpt.lookup k).bind fun st => (readLeaf w st (setStrict strict a)).map fun v => (k, v)

/-- Restoring without a target: the metadata is the target. -/
def restoreAll (w : World D E P S) (fallback : Option S) (strict : Bool) (ckpt : List (String × Stored D E S)) :
    Option (List (String × Leaf D E P S)) :=
  ckpt.mapM fun (k, st) => (metaSharding w fallback st).bind fun s =>
    (readLeaf w st (setStrict strict (metaArg w s st))).map fun v => (k, v)

end Verif.Handlers.Standard
