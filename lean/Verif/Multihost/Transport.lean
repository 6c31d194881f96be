/-
Model of the transport of values between the accelerators of a controller and the
CPUs of the hosts they are attached to.

Files modelled (under /repo/checkpoint/orbax/checkpoint):
  _src/multihost/colocated_transport.py
  _src/metadata/sharding.py (device meshes of sharding metadata)

What JAX does is modelled by `Jax`: for each device the CPU device of its host, the
devices a process sees, and `jax.device_put`, which keeps the value of an array and
gives it the sharding asked for.  Specs, axis names, memory kinds, dtypes and values
are opaque numbers.  Trees are their structure (a number) and the list of their leaves.

Core Lean only.
-/

namespace Verif.Transport

abbrev Str := List Char

/-- A device: the Python object, the client (backend) it belongs to, its id, its platform
and its `repr`. -/
structure Dev where
  obj : Nat
  client : Nat
  id : Nat
  platform : Str
  repr : Str
  deriving DecidableEq, Repr

/-- The platform of CPUs. -/
def cpu : Str := ['c', 'p', 'u']

inductive Err where
  /-- ValueError: two CPU devices with one PjRt-IFRT id. -/
  | ifrtTwice (k : Nat)
  /-- ValueError: a local id that also names another device. -/
  | ambiguous (k : Nat)
  /-- ValueError: CPU devices not visible to the sidecar. -/
  | notVisible (ids : List Nat)
  /-- KeyError of JAX when a device id is not in the map. -/
  | unknownId
  /-- TypeError: sharding type not supported. -/
  | shardingType
  /-- AssertionError: the single replica sharding is not a NamedSharding. -/
  | assertion
  /-- ValueError: the available devices are not those of the metadata. -/
  | devicesDiffer
  /-- ValueError: a mesh cannot be given its shape. -/
  | reshape
  /-- TypeError of `jax.device_put`: not a valid JAX type. -/
  | notJaxType
  /-- AttributeError: no attribute `sharding`. -/
  | noSharding
  /-- ValueError: multiple meshes found in result specs. -/
  | multipleMeshes
  /-- Error of JAX: the arguments are not all on the same list of devices. -/
  | deviceLists
  /-- Error of JAX: a result does not match its declared specification. -/
  | mismatch
  /-- The dispatched function raised. -/
  | raised (n : Nat)
  deriving DecidableEq, Repr

/-! ### Ids of devices -/

/-- colocated_transport.py:36: the text in front of the number. -/
def marker : Str := "PjRtIFRTDeviceId=".toList

/-- The rest of a string after a prefix. -/
def stripPrefix : Str → Str → Option Str
  | [], s => some s
  | _ :: _, [] => none
  | p :: ps, c :: cs => if p = c then stripPrefix ps cs else none

/-- Python `int` of a string of digits. -/
def toInt (ds : Str) : Nat := ds.foldl (fun n c => 10 * n + (c.toNat - 48)) 0

/-- colocated_transport.py:75-103: `_extract_pjrt_ifrt_device_id`: `re.search` goes
through the places from the left; the digits are matched greedily.  (Digits are the ASCII
digits.) -/
def extractId : Str → Option Nat
  | [] => none
  | c :: cs =>
    match stripPrefix marker (c :: cs) with
    | some rest =>
      if (rest.takeWhile Char.isDigit).isEmpty then extractId cs
      else some (toInt (rest.takeWhile Char.isDigit))
    | none => extractId cs

/-! ### The devices of a process -/

/-- What a process sees: its local devices, its backends (as clients), all devices of each
client, and `jax.devices()`. -/
structure Process where
  localDevices : List Dev
  backends : List Nat
  clientDevices : Nat → List Dev
  jaxDevices : List Dev

/-- colocated_transport.py:70-72: `_device_identity_key`.  (Each device has a platform, so
the fallback of `_device_platform`, lines 63-67, is not needed.) -/
def key (d : Dev) : Nat × Nat × Str := (d.client, d.id, d.platform)

/-- `dict.setdefault(key, device)`: only the values are kept, in order. -/
def setDefault (ds : List Dev) (d : Dev) : List Dev :=
  if ds.any (fun e => key e == key d) then ds else ds ++ [d]

/-- colocated_transport.py:106-121: `_all_backend_devices`. -/
def allBackendDevices (P : Process) : List Dev :=
  let first := match P.localDevices with
    | [] => []
    | d :: _ => (P.clientDevices d.client).foldl setDefault []
  P.backends.foldl (fun acc b => (P.clientDevices b).foldl setDefault acc) first

abbrev Map := List (Nat × Dev)

/-- One step of the first loop, colocated_transport.py:144-158. -/
def addIfrt (m : Map) (d : Dev) : Except Err Map :=
  if d.platform != cpu then .ok m else
  match extractId d.repr with
  | none => .ok m
  | some k =>
    match m.lookup k with
    | some e => if e != d then .error (.ifrtTwice k) else .ok m
    | none => .ok ((k, d) :: m)

/-- One step of the second loop, colocated_transport.py:160-170. -/
def addLocal (m : Map) (d : Dev) : Except Err Map :=
  if d.platform != cpu then .ok m else
  match m.lookup d.id with
  | some e => if e != d then .error (.ambiguous d.id) else .ok m
  | none => .ok ((d.id, d) :: m)

/-- colocated_transport.py:124-172: `_get_cpu_device_map`. -/
def cpuDeviceMap (P : Process) : Except Err Map :=
  match (allBackendDevices P).foldlM addIfrt [] with
  | .error e => .error e
  | .ok m => (allBackendDevices P).foldlM addLocal m

/-- colocated_transport.py:174-198: `resolve_colocated_cpu_devices`. -/
def resolve (P : Process) (ids : List Nat) : Except Err (List Dev) :=
  match cpuDeviceMap P with
  | .error e => .error e
  | .ok m =>
    let missing := ids.filter (fun k => (m.lookup k).isNone)
    if missing.isEmpty then .ok (ids.filterMap (fun k => m.lookup k))
    else .error (.notVisible missing)

/-! ### Meshes and shardings -/

/-- A mesh: its devices in row-major order, its shape, axis names and axis types. -/
structure Mesh where
  devices : List Dev
  shape : List Nat
  axes : Nat
  types : Nat
  deriving DecidableEq, Repr

inductive Sharding where
  | single (d : Dev) (memoryKind : Option Nat)
  | named (mesh : Mesh) (spec : Nat) (memoryKind : Option Nat)
  /-- Any other class of shardings. -/
  | other (n : Nat)
  deriving DecidableEq, Repr

/-- What JAX provides: for each device the CPU of its host
(`cp.colocated_cpu_devices`, which keeps CPUs). -/
structure Jax where
  colo : Dev → Dev

/-- colocated_transport.py:56-60: `_to_serializable_cpu_device`. -/
def toCpu (J : Jax) (d : Dev) : Dev := if d.platform == cpu then d else J.colo d

/-- colocated_transport.py:200-211: `_normalize_mesh_to_colocated_cpu`. -/
def normalizeMesh (J : Jax) (m : Mesh) : Mesh :=
  if m.devices.all (fun d => d.platform == cpu) then m
  else { m with devices := m.devices.map (toCpu J) }

/-- colocated_transport.py:214-221: `_normalize_device_list_to_colocated_cpu`. -/
def normalizeList (J : Jax) (ds : List Dev) : List Dev :=
  if ds.all (fun d => d.platform == cpu) then ds else ds.map (toCpu J)

/-- A mesh on the wire: the ids of its devices, and the rest. -/
structure WireMesh where
  ids : List Nat
  shape : List Nat
  axes : Nat
  types : Nat
  deriving DecidableEq, Repr

/-- colocated_transport.py:270-271: `_orbax_reduce_mesh`; JAX writes the ids of the
devices. -/
def reduceMesh (J : Jax) (m : Mesh) : WireMesh :=
  let n := normalizeMesh J m
  ⟨n.devices.map Dev.id, n.shape, n.axes, n.types⟩

/-- JAX's reading of a mesh in the worker, with the map put in its place at
colocated_transport.py:290. -/
def unreduceMesh (P : Process) (w : WireMesh) : Except Err Mesh :=
  match cpuDeviceMap P with
  | .error e => .error e
  | .ok m =>
    if w.ids.any (fun k => (m.lookup k).isNone) then .error .unknownId
    else .ok ⟨w.ids.filterMap (fun k => m.lookup k), w.shape, w.axes, w.types⟩

/-- colocated_transport.py:301-313: `unique_colocated_cpu_devices`. -/
def uniqueCpus (J : Jax) (ds : List Dev) : List Dev :=
  ((ds.map J.colo).foldl
    (fun (acc : List Dev × List Nat) d =>
      if acc.2.contains d.id then acc else (acc.1 ++ [d], d.id :: acc.2))
    ([], [])).1

/-- colocated_transport.py:316-318: `colocated_cpu_mesh`. -/
def cpuMesh (J : Jax) (m : Mesh) : Mesh := { m with devices := m.devices.map J.colo }

/-- colocated_transport.py:321-337: `colocated_cpu_sharding`. -/
def cpuSharding (J : Jax) : Sharding → Except Err Sharding
  | .single d k => .ok (.single (J.colo d) k)
  | .named m s k => .ok (.named (cpuMesh J m) s k)
  | .other _ => .error .shardingType

/-! ### Sharding metadata -/

inductive Meta where
  /-- `NamedShardingMetadata`: shape, axis names and types, spec and, if known, the ids of
  the devices. -/
  | named (shape : List Nat) (axes : Nat) (types : Nat) (spec : Nat)
      (ids : Option (List Nat))
  /-- `SingleDeviceShardingMetadata`: the name of the device, which is made of its platform
  and its id. -/
  | single (platform : Str) (id : Nat)
  deriving DecidableEq, Repr

/-- `device_map[device.id] = device` for all devices: the last one stays. -/
def deviceById (ds : List Dev) (k : Nat) : Option Dev :=
  ds.reverse.find? (fun d => d.id == k)

def prod (l : List Nat) : Nat := l.foldl (· * ·) 1

/-- metadata/sharding.py:115-142, 205-218, 293-305: `to_jax_sharding`.  (The local devices
are taken to be all devices.) -/
def Meta.toJax (P : Process) : Meta → Except Err Sharding
  | .named shape axes types spec ids =>
    match ids with
    | some ks =>
      if ks.any (fun k => (deviceById P.jaxDevices k).isNone) then .error .devicesDiffer
      else if ks.length ≠ prod shape then .error .reshape
      else .ok (.named ⟨ks.filterMap (deviceById P.jaxDevices), shape, axes, types⟩ spec none)
    | none =>
      if P.jaxDevices.length ≠ prod shape then .error .reshape
      else .ok (.named ⟨P.jaxDevices, shape, axes, types⟩ spec none)
  | .single p k =>
    match P.jaxDevices.reverse.find? (fun d => d.platform == p && d.id == k) with
    | some d => .ok (.single d none)
    | none => .error .devicesDiffer

/-- metadata/sharding.py:90-113, 193-203, 287-291: `from_jax_sharding` of the class of the
metadata at hand.  (With a sharding of another class it fails.) -/
def Meta.fromJax : Meta → Sharding → Except Err Meta
  | .named .., .named m spec _ =>
    .ok (.named m.shape m.axes m.types spec (some (m.devices.map Dev.id)))
  | .single .., .single d _ => .ok (.single d.platform d.id)
  | _, _ => .error .shardingType

/-! ### Leaves -/

/-- A `jax.Array`. -/
structure Arr where
  shape : List Nat
  dtype : Nat
  val : Nat
  sharding : Sharding
  deriving DecidableEq, Repr

/-- A `jax.ShapeDtypeStruct`; it has the attribute `sharding`, which may be None. -/
structure Spec where
  shape : List Nat
  dtype : Nat
  sharding : Option Sharding
  deriving DecidableEq, Repr

/-- The field `sharding` of `ArrayRestoreArgs`. -/
inductive Field where
  | none
  | jax (s : Sharding)
  | metadata (m : Meta)
  /-- A `Format` (layout). -/
  | format (n : Nat)
  deriving DecidableEq, Repr

/-- `ArrayRestoreArgs`; `replica` is `some` for a `SingleReplicaArrayRestoreArgs` and then
its `single_replica_sharding`.  `rest` stands for the other fields. -/
structure RestoreArgs where
  mesh : Option Mesh
  sharding : Field
  replica : Option (Option Sharding)
  rest : Nat
  deriving DecidableEq, Repr

inductive Leaf where
  | sharding (s : Sharding)
  | spec (s : Spec)
  | args (r : RestoreArgs)
  | array (a : Arr)
  | plain (n : Nat)
  deriving DecidableEq, Repr

/-- colocated_transport.py:384-423: `convert_array_restore_args`. -/
def convertArgs (J : Jax) (P : Process) (r : RestoreArgs) : Except Err RestoreArgs :=
  let r := { r with mesh := r.mesh.map (cpuMesh J) }
  match r.sharding with
  | .none => .ok r
  | .jax s =>
    match cpuSharding J s with
    | .error e => .error e
    | .ok s' => .ok { r with sharding := .jax s' }
  | .metadata m =>
    match m.toJax P with
    | .error e => .error e
    | .ok s =>
      match cpuSharding J s with
      | .error e => .error e
      | .ok s' =>
        match m.fromJax s' with
        | .error e => .error e
        | .ok m' => .ok { r with sharding := .metadata m' }
  | .format _ => .error .shardingType

/-- colocated_transport.py:426-441: `convert_single_replica_restore_args`. -/
def convertReplicaArgs (J : Jax) (P : Process) (r : RestoreArgs) : Except Err RestoreArgs :=
  match r.replica with
  | some (some s) =>
    match cpuSharding J s with
    | .error e => .error e
    | .ok (.named m sp k) => convertArgs J P { r with replica := some (some (.named m sp k)) }
    | .ok _ => .error .assertion
  | _ => convertArgs J P r

/-- The copy of one array to the CPUs: colocated_transport.py:343-356. -/
def arrayToCpu (J : Jax) (a : Arr) : Except Err Arr :=
  match cpuSharding J a.sharding with
  | .error e => .error e
  | .ok s => .ok { a with sharding := s }

/-- colocated_transport.py:450-454: a `ShapeDtypeStruct`. -/
def specToCpu (J : Jax) (s : Spec) : Except Err Spec :=
  match s.sharding with
  | none => .error .shardingType
  | some sh =>
    match cpuSharding J sh with
    | .error e => .error e
    | .ok sh' => .ok ⟨s.shape, s.dtype, some sh'⟩

/-- colocated_transport.py:447-461: `_transform_leaf_sharding`. -/
def transformLeaf (J : Jax) (P : Process) : Leaf → Except Err Leaf
  | .sharding s => match cpuSharding J s with | .error e => .error e | .ok s' => .ok (.sharding s')
  | .spec s => match specToCpu J s with | .error e => .error e | .ok s' => .ok (.spec s')
  | .args r =>
    match (if r.replica.isSome then convertReplicaArgs J P r else convertArgs J P r) with
    | .error e => .error e
    | .ok r' => .ok (.args r')
  | .array a => match arrayToCpu J a with | .error e => .error e | .ok a' => .ok (.array a')
  | .plain n => .ok (.plain n)

/-! ### Trees -/

/-- A tree: its structure, its truth value in Python and its leaves. -/
structure Tree (α : Type) where
  treedef : Nat
  truthy : Bool
  leaves : List α
  deriving DecidableEq, Repr

/-- `jax.tree.map` with a function that may raise, on a list of leaves. -/
def mapM {α β : Type} (f : α → Except Err β) : List α → Except Err (List β)
  | [] => .ok []
  | x :: xs =>
    match f x with
    | .error e => .error e
    | .ok y =>
      match mapM f xs with
      | .error e => .error e
      | .ok ys => .ok (y :: ys)

/-- `jax.tree.map`. -/
def Tree.mapM {α β : Type} (f : α → Except Err β) (t : Tree α) : Except Err (Tree β) :=
  match Transport.mapM f t.leaves with
  | .error e => .error e
  | .ok l => .ok ⟨t.treedef, t.truthy, l⟩

/-- colocated_transport.py:444-463: `transform_tree_shardings`. -/
def transformTree (J : Jax) (P : Process) (t : Tree Leaf) : Except Err (Tree Leaf) :=
  t.mapM (transformLeaf J P)

/-- A leaf of the input of a dispatch: an array, something `jax.device_put` turns into an
array (a number or NumPy array), or something else. -/
inductive Inp where
  | arr (a : Arr)
  | num (shape : List Nat) (dtype : Nat) (val : Nat)
  | obj (n : Nat)
  deriving DecidableEq, Repr

/-- One leaf of `to_colocated_python`, colocated_transport.py:340-356.  Without a sharding
`jax.device_put` puts it on the default device, the first of `jax.devices()`. -/
def inputToCpu (J : Jax) (P : Process) : Inp → Except Err Arr
  | .arr a => arrayToCpu J a
  | .num sh dt v =>
    match P.jaxDevices with
    | d :: _ => .ok ⟨sh, dt, v, .single d none⟩
    | [] => .error .notJaxType
  | .obj _ => .error .notJaxType

/-- colocated_transport.py:340-356: `to_colocated_python`. -/
def toColocated (J : Jax) (P : Process) (t : Tree Inp) : Except Err (Tree Arr) :=
  t.mapM (inputToCpu J P)

/-- `jax.device_put(leaf, spec.sharding)`, colocated_transport.py:480. -/
def putFinal (a : Arr) (s : Spec) : Arr :=
  match s.sharding with
  | some sh => { a with sharding := sh }
  | none => a

/-- colocated_transport.py:466-482: `to_final_specs`; `jax.tree.map` needs trees of one
structure. -/
def toFinal (t : Tree Arr) (specs : Tree Spec) : Except Err (Tree Arr) :=
  if t.treedef = specs.treedef ∧ t.leaves.length = specs.leaves.length then
    .ok ⟨t.treedef, t.truthy, List.zipWith putFinal t.leaves specs.leaves⟩
  else .error .mismatch

/-! ### Callbacks -/

/-- One component of the index of a shard: a slice or a number. -/
inductive Idx where
  | slice (start stop : Option Nat)
  | int (n : Nat)
  deriving DecidableEq, Repr

/-- colocated_transport.py:505-515: the shape of the zeros that `zeros_like_spec` makes for
the shard with an index. -/
def zerosShape : List Idx → List Nat → List Nat
  | .slice a b :: is, n :: ns => (b.getD n - a.getD 0) :: zerosShape is ns
  | .int _ :: is, _ :: ns => 1 :: zerosShape is ns
  | _, _ => []

/-- colocated_transport.py:359-381: the shape of what the callback of
`make_scalar_array_like` returns for any shard: `np.asarray(value)` of a number. -/
def scalarShape (_ : List Idx) : List Nat := []

end Verif.Transport
