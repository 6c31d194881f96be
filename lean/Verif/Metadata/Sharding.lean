import Verif.Metadata.Rich

/-!
# Model of sharding metadata

Models `/repo/checkpoint/orbax/checkpoint/_src/metadata/sharding.py`.  JSON values as in `Verif.Metadata.Rich`; exceptions are `none`.
Of JAX itself: a mesh is its devices in row-major order, its shape, its axis names and the types of its axes;
`PartitionSpec(*l)` makes tuples of lists, and of one-element and empty tuples the element and `None`
(`jax/_src/partition_spec.py`, `_canonicalize_partition`); `Mesh` without axis types makes all axes `Auto`.
Not modelled: memory kinds (not kept by the code either), `unreduced` specs, `PositionalSharding`.
-/

namespace Verif.TreeMetadata

open Verif Verif.Trees

def kType : Name := ['s', 'h', 'a', 'r', 'd', 'i', 'n', 'g', '_', 't', 'y', 'p', 'e']
def kMeshShape : Name := ['s', 'h', 'a', 'p', 'e']
def kAxes : Name := ['a', 'x', 'i', 's', '_', 'n', 'a', 'm', 'e', 's']
def kAxisTypes : Name := ['a', 'x', 'i', 's', '_', 't', 'y', 'p', 'e', 's']
def kSpec : Name := ['p', 'a', 'r', 't', 'i', 't', 'i', 'o', 'n', '_', 's', 'p', 'e', 'c']
def kMesh : Name := ['d', 'e', 'v', 'i', 'c', 'e', '_', 'm', 'e', 's', 'h']
def kInner : Name := ['m', 'e', 's', 'h']
def kId : Name := ['i', 'd']
def kDevice : Name := ['d', 'e', 'v', 'i', 'c', 'e', '_', 's', 't', 'r']
def vNamedSharding : Name := ['N', 'a', 'm', 'e', 'd', 'S', 'h', 'a', 'r', 'd', 'i', 'n', 'g']
def vSingle : Name := ['S', 'i', 'n', 'g', 'l', 'e', 'D', 'e', 'v', 'i', 'c', 'e', 'S', 'h', 'a', 'r', 'd', 'i', 'n', 'g']

/-- `jax.sharding.AxisType`. -/
inductive AxisType where
  | auto
  | explicit
  | manual
  deriving DecidableEq, Repr

/-- One element of a partition spec: `None`, an axis, several axes (in a tuple, or in a list as JSON gives them), or `UNCONSTRAINED`. -/
inductive SpecElem where
  | none
  | axis (a : Name)
  | tuple (l : List Name)
  | list (l : List Name)
  | unconstrained
  deriving DecidableEq, Repr

/-- `NamedShardingMetadata`, sharding.py:178-191.  The device mesh is a nested sequence of device numbers (`DeviceMetadataMesh`, sharding.py:74-78). -/
structure Named where
  shape : List Int
  axes : List Name
  spec : List SpecElem
  types : Option (List AxisType)
  mesh : Option (Tree Int)
  deriving DecidableEq

/-- `ShardingMetadata`. -/
inductive ShardingMeta where
  | named (s : Named)
  | single (device : Name)
  deriving DecidableEq

/-! ### Writing -/

/-- An element of the partition spec in JSON; `none`: `TypeError` (not serializable). -/
def SpecElem.toJson : SpecElem → Option Py
  | SpecElem.none => some .pyNone
  | .axis a => some (pyStr a)
  | .tuple l => some (listNode (l.map pyStr))
  | .list l => some (listNode (l.map pyStr))
  | .unconstrained => Option.none

mutual
/-- `dataclasses.asdict` of the mesh, and its JSON. -/
def meshJson : Tree Int → Py
  | .leaf i => dictNode [(kId, .leaf (.int i))]
  | .node _ f => .node .list (meshesJson 0 f)
def meshesJson (i : Nat) : Forest Int → Forest P
  | .nil => .nil
  | .cons _ t r => .cons (.seq i) (meshJson t) (meshesJson (i + 1) r)
end

/-- `to_serialized_string`, sharding.py:252-262, without the text.  `str` is `str` of an axis type. -/
def Named.toJson (str : AxisType → Name) (s : Named) : Option Py :=
  (s.spec.mapM SpecElem.toJson).map fun sp =>
    dictNode ([(kType, pyStr vNamedSharding), (kMeshShape, listNode (s.shape.map fun i => .leaf (.int i))), (kAxes, listNode (s.axes.map pyStr))] ++
      (match s.types with
        | none => []
        | some l => [(kAxisTypes, listNode (l.map fun a => pyStr (str a)))]) ++
      [(kSpec, listNode sp)] ++
      (match s.mesh with
        | none => []
        | some m => [(kMesh, dictNode [(kInner, meshJson m)])]))

/-- `to_serialized_string` of both classes, sharding.py:252-262, 319-323. -/
def ShardingMeta.toJson (str : AxisType → Name) : ShardingMeta → Option Py
  | .named s => s.toJson str
  | .single d => some (dictNode [(kType, pyStr vSingle), (kDevice, pyStr d)])

/-! ### Reading -/

/-- The strings of a JSON list. -/
def Forest.strs : Forest P → Option (List Name)
  | .nil => some []
  | .cons _ (.leaf (.str s)) r => (Forest.strs r).map (s :: ·)
  | .cons _ _ _ => none

/-- An element of the partition spec as JSON gives it.  Python keeps other values, here they are an exception. -/
def SpecElem.ofJson : Py → Option SpecElem
  | .node .none .nil => some .none
  | .leaf (.str a) => some (.axis a)
  | .node .list f => (Forest.strs f).map .list
  | _ => none

def Forest.specs : Forest P → Option (List SpecElem)
  | .nil => some []
  | .cons _ t r => do
    let x ← SpecElem.ofJson t
    let l ← Forest.specs r
    return x :: l

mutual
/-- `DeviceMetadataMesh.from_dict`, sharding.py:80-88, and `DeviceMetadata.from_dict`, sharding.py:58-62.  Dictionaries other than those of devices are an
exception here. -/
def meshOf : Py → Option (Tree Int)
  | .node .dict f => match f.get (fld kId) with
    | some (.leaf (.int i)) => some (.leaf i)
    | _ => none
  | .node .list f => (meshesOf f).map (.node .list)
  | _ => none
def meshesOf : Forest P → Option (Forest Int)
  | .nil => some .nil
  | .cons k t r => do
    let t' ← meshOf t
    let r' ← meshesOf r
    return .cons k t' r'
end

/-- `_AXIS_TYPE_MAP[s]`, sharding.py:30: the last type with that name. -/
def axisType (str : AxisType → Name) (s : Name) : Option AxisType :=
  if s = str .manual then some .manual else if s = str .explicit then some .explicit else if s = str .auto then some .auto else none

/-- `NamedShardingMetadata.from_deserialized_dict`, sharding.py:220-250. -/
def Named.ofDict (str : AxisType → Name) (f : Forest P) : Option Named :=
  match f.get (fld kMeshShape), f.get (fld kAxes), f.get (fld kSpec) with
  | some (.node .list sh), some (.node .list ax), some (.node .list sp) => do
    let shape ← Forest.ints sh
    let axes ← Forest.strs ax
    let types ← match f.get (fld kAxisTypes) with
      | none => some none
      | some (.node .none .nil) => some none
      | some (.node .list .nil) => some none
      | some (.node .list l) => ((Forest.strs l).bind fun l => l.mapM (axisType str)).map some
      | some _ => none
    let spec ← Forest.specs sp
    let mesh ← match f.get (fld kMesh) with
      | none => some none
      | some (.node .none .nil) => some none
      | some (.node .dict .nil) => some none
      | some (.node .dict g) => match g.get (fld kInner) with
        | some m => (meshOf m).map some
        | none => none
      | some _ => none
    return ⟨shape, axes, spec, types, mesh⟩
  | _, _, _ => none

/-- `from_serialized_string`, sharding.py:350-373; `SingleDeviceShardingMetadata.from_deserialized_dict`, sharding.py:306-317. -/
def ShardingMeta.ofJson (str : AxisType → Name) : Py → Option ShardingMeta
  | .node .dict f =>
    match f.get (fld kType) with
    | some (.leaf (.str t)) =>
      if t = vNamedSharding then (Named.ofDict str f).map .named
      else if t = vSingle then
        match f.get (fld kDevice) with
        | some (.leaf (.str d)) => some (.single d)
        | _ => none
      else none
    | _ => none
  | _ => none

/-! ### JAX shardings -/

/-- `jax.sharding.NamedSharding`. -/
structure JaxNamed where
  devices : List Int
  shape : List Nat
  axes : List Name
  types : List AxisType
  spec : List SpecElem
  deriving DecidableEq

/-- The pieces of `n` elements of a list. -/
def pieces {α} (n : Nat) : Nat → List α → List (List α)
  | 0, _ => []
  | k + 1, l => l.take n :: pieces n k (l.drop n)

/-- `devices.tolist()`, sharding.py:105-111: the nested lists of an array. -/
def nest : List Nat → List Int → Tree Int
  | [], l => .leaf (l.headD 0)
  | n :: s, l => listNode ((pieces s.prod n l).map (nest s))

/-- `NamedShardingMetadata.from_jax_sharding`, sharding.py:193-203. -/
def JaxNamed.toMeta (j : JaxNamed) : Named :=
  ⟨j.shape.map Int.ofNat, j.axes, j.spec, some j.types, some (nest j.shape j.devices)⟩

mutual
/-- The devices of a nested sequence in order. -/
def leavesOf : Tree Int → List Int
  | .leaf i => [i]
  | .node _ f => leavesOfAll f
def leavesOfAll : Forest Int → List Int
  | .nil => []
  | .cons _ t r => leavesOf t ++ leavesOfAll r
end

/-- `build_device`, sharding.py:127-142, `jax.tree.map` and `np.asarray(…)`: the devices of the nested sequence in order. -/
def meshDevices (available : List Int) (t : Tree Int) : Option (List Int) :=
  (leavesOf t).mapM fun i => if i ∈ available then some i else none

/-- `_canonicalize_partition` of JAX. -/
def canonical : SpecElem → SpecElem
  | .axis a => if a = [] then .none else .axis a
  | .tuple l => match l with
    | [] => .none
    | [a] => .axis a
    | _ => .tuple l
  | .list l => match l with
    | [] => .none
    | [a] => .axis a
    | _ => .tuple l
  | e => e

/-- `NamedShardingMetadata.to_jax_sharding`, sharding.py:205-218.  `none`: `ValueError` (a device is missing, or the shape does not fit). -/
def Named.toJax (available : List Int) (s : Named) : Option JaxNamed := do
  let devices ← match s.mesh with
    | some m => meshDevices available m
    | none => some available
  let shape := s.shape.map Int.toNat
  if devices.length = shape.prod then
    return ⟨devices, shape, s.axes, s.types.getD (s.axes.map fun _ => .auto), s.spec.map canonical⟩
  else none

/-- `device_str.replace('TFRT_CPU_', 'cpu:')`. -/
def newName : Name → Name
  | 'T' :: 'F' :: 'R' :: 'T' :: '_' :: 'C' :: 'P' :: 'U' :: '_' :: r => 'c' :: 'p' :: 'u' :: ':' :: newName r
  | c :: r => c :: newName r
  | [] => []

/-- `SingleDeviceShardingMetadata.to_jax_sharding`, sharding.py:293-304: a dictionary of the local devices, so the last one with the name. -/
def singleToJax (localDevices : List Name) (d : Name) : Option Name :=
  localDevices.reverse.find? fun x => newName x == newName d

/-- `SingleDeviceShardingMetadata.__eq__`, sharding.py:328-335. -/
def singleEq (d e : Name) : Bool := newName d == newName e

end Verif.TreeMetadata
