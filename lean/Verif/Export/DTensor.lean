/-!
# From arrays of JAX to DTensors

Models `export/orbax/export/dtensor_utils.py`: the layout chosen for an array with a partition spec, the
specs of a tree of arrays, and the stack of meshes in use. Meshes are their axes with sizes.
-/
namespace Verif.Export.DTensor

abbrev Axis := String

/-- A mesh: the sizes of its axes. -/
abbrev Mesh := List (Axis × Nat)

/-- One element of a `PartitionSpec`: `None`, an axis, a tuple of axes, or anything else. -/
inductive Entry
  | none
  | axis (a : Axis)
  | axes (as : List Axis)
  | other
deriving DecidableEq, Repr

inductive Err | type | value | index | noMesh | assertion
deriving DecidableEq, Repr

/-- `dmesh.dim_size(name)`: raises for an unknown axis. -/
def dimSize (m : Mesh) (a : Axis) : Except Err Nat :=
  match m.lookup a with
  | some k => .ok k
  | none => .error .value

/-- `tuple(dmesh.dim_size(name) for name in mesh_axis_name)`. -/
def dimSizes (m : Mesh) : List Axis → Except Err (List Nat)
  | [] => .ok []
  | a :: as =>
    match dimSize m a with
    | .error e => .error e
    | .ok k =>
      match dimSizes m as with
      | .error e => .error e
      | .ok ks => .ok (k :: ks)

/-- `filter(lambda x: dmesh.dim_size(x) != 1, mesh_axis_name)`; the sizes were read before. -/
def notOne (m : Mesh) (as : List Axis) : List Axis := as.filter (fun a => m.lookup a != some 1)

/-- The axis for a tuple, and whether the array has to be resharded, `dtensor_utils.py:241-273`. -/
def pick (m : Mesh) (allow : Bool) (as : List Axis) : Except Err (Axis × Bool) :=
  match as with
  | [] => .error .assertion
  | [a] => .ok (a, false)
  | a :: _ :: _ =>
    match dimSizes m as with
    | .error e => .error e
    | .ok sizes =>
      if sizes.count 1 < as.length - 1 then
        if allow then .ok (as.getD (sizes.idxOf (sizes.foldl max 0)) a, true)
        else .error .value
      else
        match notOne m as with
        | [] => .ok (a, false)
        | [b] => .ok (b, false)
        | _ => .error .assertion

/-- The check that the size of the dimension is a multiple, `dtensor_utils.py:274-282`. -/
def check (m : Mesh) (n : Option Nat) (a : Axis) (reshard : Bool) : Except Err (Option Axis × Bool) :=
  match dimSize m a with
  | .error e => .error e
  | .ok k =>
    match n with
    | none => .error .index
    | some n => if n % k ≠ 0 then .error .value else .ok (some a, reshard)

/-- One turn of the loop, `dtensor_utils.py:236-284`; `n` is `arr.shape[i]`. -/
def entry (m : Mesh) (allow : Bool) (n : Option Nat) : Entry → Except Err (Option Axis × Bool)
  | .none => .ok (none, false)
  | .axis a => if a = "" then .ok (none, false) else check m n a false
  | .axes [] => .ok (none, false)
  | .axes as =>
    match pick m allow as with
    | .error e => .error e
    | .ok (a, r) => check m n a r
  | .other => .error .type

/-- The loop and the rest of the dimensions, `dtensor_utils.py:231-286` (`pspec is None` is the empty one). -/
def layout (m : Mesh) (allow : Bool) : List Nat → List Entry → Except Err (List (Option Axis) × Bool)
  | shape, [] => .ok (shape.map (fun _ => none), false)
  | shape, e :: es =>
    match entry m allow shape.head? e with
    | .error err => .error err
    | .ok (a, r) =>
      match layout m allow shape.tail es with
      | .error err => .error err
      | .ok (as, r') => .ok (a :: as, r || r')

/-- The spec of a layout: `axis_name if axis_name != dtensor.UNSHARDED else None`. -/
def toEntry : Option Axis → Entry
  | none => .none
  | some a => .axis a

/-- What is packed: the layout of the DTensor, and the spec the local pieces are taken with. -/
structure Packed where
  layout : List (Option Axis)
  data : List Entry
deriving DecidableEq, Repr

/-- `jax_array_to_dtensor`, `dtensor_utils.py:196-302`. Resharding needs the mesh of JAX (`with None` raises). -/
def convert (m : Mesh) (jaxMesh allow : Bool) (shape : List Nat) (spec : List Entry) : Except Err Packed :=
  match layout m allow shape spec with
  | .error e => .error e
  | .ok (lay, false) => .ok ⟨lay, spec⟩
  | .ok (lay, true) => if jaxMesh then .ok ⟨lay, lay.map toEntry⟩ else .error .noMesh

/-! ## Specs of a tree -/

/-- A leaf: without sharding, with a `NamedSharding`, or with another kind. -/
inductive Leaf (M S : Type)
  | unsharded
  | named (mesh : M) (spec : S)
  | foreign

/-- `get_pspec_from_jax_arrays`, `dtensor_utils.py:392-431`, with `expected_mesh`. `empty` is
`PartitionSpec()`. -/
def pspecs {M S : Type} [DecidableEq M] (empty : S) (expected : Option M) : List (Leaf M S) → Except Err (List S)
  | [] => .ok []
  | .unsharded :: ls =>
    match pspecs empty expected ls with
    | .ok r => .ok (empty :: r)
    | .error e => .error e
  | .foreign :: _ => .error .assertion
  | .named mesh spec :: ls =>
    let want := expected.getD mesh
    if want ≠ mesh then .error .assertion
    else
      match pspecs empty (some want) ls with
      | .ok r => .ok (spec :: r)
      | .error e => .error e

/-! ## Meshes in use -/

/-- What a thread does: look at the current mesh, raise, change whether DTensor is initialized, or run a
program with a mesh enabled (or none), possibly catching what it raises. -/
inductive Prog (M : Type)
  | look
  | raise
  | setInit (b : Bool)
  | seq (p q : Prog M)
  | enable (mesh : Option M) (body : Prog M)
  | catching (body : Prog M)

/-- The state of a thread: the stack, whether DTensor is initialized, and the meshes seen. -/
structure St (M : Type) where
  stack : List M
  init : Bool
  seen : List (Option M)

/-- `maybe_enable_dtensor_export_on` and `get_current_mesh`, `dtensor_utils.py:322-390`. The result says
whether the program raised. -/
def run {M : Type} : Prog M → St M → Bool × St M
  | .look, s => (false, { s with seen := s.seen ++ [s.stack.head?] })
  | .raise, s => (true, s)
  | .setInit b, s => (false, { s with init := b })
  | .seq p q, s =>
    let r := run p s
    if r.1 then r else run q r.2
  | .catching p, s => (false, (run p s).2)
  | .enable mesh body, s =>
    match s.init, mesh with
    | true, some mesh =>
      let r := run body { s with stack := mesh :: s.stack }
      (r.1, { r.2 with stack := r.2.stack.tail })
    | _, _ => run body s

end Verif.Export.DTensor
