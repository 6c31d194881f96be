/-
Model of the dispatching of functions to the hosts of accelerators.

Files modelled (under /repo/checkpoint/orbax/checkpoint):
  _src/multihost/dispatchers.py

JAX's colocated Python is modelled by its contract: the arrays given to a function must
all be on one list of devices (as said at dispatchers.py:63), and what it returns must
match the declared specification in structure, shapes, dtypes and shardings.

Core Lean only.
-/
import Verif.Multihost.Transport

namespace Verif.Transport

/-- The devices of a sharding, in order.  (Of other shardings nothing is known.) -/
def Sharding.devices : Sharding → List Dev
  | .single d _ => [d]
  | .named m _ _ => m.devices
  | .other _ => []

/-- `set` of devices: each once. -/
def dedup : List Dev → List Dev
  | [] => []
  | d :: ds => d :: (dedup ds).filter (fun e => e != d)

/-- Insertion by id. -/
def insertById (d : Dev) : List Dev → List Dev
  | [] => [d]
  | e :: es => if d.id ≤ e.id then d :: e :: es else e :: insertById d es

/-- `sorted(list(devices), key=lambda d: d.id)`. -/
def sortById : List Dev → List Dev
  | [] => []
  | d :: ds => insertById d (sortById ds)

/-- Axis name `'d'`, default axis types, empty partition spec, `jnp.bool`, the value
`True`. -/
def axisD : Nat := 0
def typesD : Nat := 0
def specD : Nat := 0
def boolD : Nat := 0
def trueD : Nat := 1

/-- The sharding of the dummy arrays: replicated over the devices. -/
def replicated (ds : List Dev) : Sharding :=
  .named ⟨ds, [ds.length], axisD, typesD⟩ specD none

/-- dispatchers.py:32-38: `get_dummy_input_array`. -/
def dummyInput (ds : List Dev) : Arr := ⟨[], boolD, trueD, replicated ds⟩

/-- The device list of the mesh of a specification: dispatchers.py:49-52. -/
def Spec.meshDevices (s : Spec) : Option (List Dev) :=
  match s.sharding with
  | some (.named m _ _) => some m.devices
  | _ => none

/-- The devices of a specification: dispatchers.py:48-50. -/
def Spec.deviceSet (s : Spec) : List Dev :=
  match s.sharding with
  | some sh => sh.devices
  | none => []

/-- dispatchers.py:41-66: `_get_dummy_input_array_from_result_specs`. -/
def dummyFromSpecs (P : Process) (specs : Tree Spec) : Except Err Arr :=
  match specs.leaves.filterMap Spec.meshDevices with
  | [] =>
    let ds := dedup (specs.leaves.flatMap Spec.deviceSet)
    .ok (dummyInput (sortById (if ds.isEmpty then dedup P.jaxDevices else ds)))
  | l :: ls => if ls.all (fun k => k == l) then .ok (dummyInput l) else .error .multipleMeshes

/-- The device set of one leaf in dispatchers.py:83: only arrays have a sharding. -/
def Inp.deviceSet : Inp → Except Err (List Dev)
  | .arr a => .ok a.sharding.devices
  | _ => .error .noSharding

/-- dispatchers.py:82-88: the devices of all leaves, sorted, and the sharding replicated
over them. -/
def dummySharding (t : Tree Inp) : Except Err Sharding :=
  match mapM Inp.deviceSet t.leaves with
  | .error e => .error e
  | .ok l => .ok (replicated (sortById (dedup l.flatten)))

/-- A tree that is one leaf. -/
def leafTree {α : Type} (x : α) : Tree α := ⟨0, true, [x]⟩

/-- What the worker is called with: the input arrays, if provided, and the arguments. -/
structure Call where
  input : Option (Tree Arr)
  args : Tree Leaf
  kwargs : Tree Leaf
  deriving DecidableEq, Repr

/-- All that is prepared before the function is called. -/
structure Prep where
  inp : Tree Arr
  args : Tree Leaf
  kwargs : Tree Leaf
  specs : Tree Spec
  cpuSpecs : Tree Spec
  deriving DecidableEq, Repr

/-- dispatchers.py:220-224: the input arrays, or the dummy in place of them. -/
def chooseInput (P : Process) (input : Option (Tree Inp)) (specs : Option (Tree Spec)) :
    Except Err (Tree Inp) :=
  match input with
  | some t => .ok t
  | none =>
    match specs with
    | none => .ok (leafTree (.arr (dummyInput P.jaxDevices)))
    | some sp =>
      match dummyFromSpecs P sp with
      | .error e => .error e
      | .ok a => .ok (leafTree (.arr a))

/-- dispatchers.py:239-241: `result_specs or _make_dummy_result_array(...)`. -/
def chooseSpecs (inputs : Tree Inp) (specs : Option (Tree Spec)) : Except Err (Tree Spec) :=
  let dummy : Except Err (Tree Spec) :=
    match dummySharding inputs with
    | .error e => .error e
    | .ok sh => .ok (leafTree ⟨[], boolD, some sh⟩)
  match specs with
  | some sp => if sp.truthy then .ok sp else dummy
  | none => dummy

/-- JAX: all arrays are on the same list of devices. -/
def sameDevices : List Arr → Bool
  | [] => true
  | a :: as => as.all (fun b => b.sharding.devices == a.sharding.devices)

/-- dispatchers.py:215-247: all that happens before the function is called. -/
def prepare (J : Jax) (P : Process) (input : Option (Tree Inp)) (specs : Option (Tree Spec))
    (args kwargs : Tree Leaf) : Except Err Prep :=
  match chooseInput P input specs with
  | .error e => .error e
  | .ok inputs =>
  match transformTree J P args with
  | .error e => .error e
  | .ok cpuArgs =>
  match transformTree J P kwargs with
  | .error e => .error e
  | .ok cpuKwargs =>
  match chooseSpecs inputs specs with
  | .error e => .error e
  | .ok sp =>
  match sp.mapM (specToCpu J) with
  | .error e => .error e
  | .ok cpuSpecs =>
  match toColocated J P inputs with
  | .error e => .error e
  | .ok inp =>
    if sameDevices inp.leaves then .ok ⟨inp, cpuArgs, cpuKwargs, sp, cpuSpecs⟩
    else .error .deviceLists

/-- A result matches its specification. -/
def fits (a : Arr) (s : Spec) : Bool :=
  a.shape == s.shape && a.dtype == s.dtype && s.sharding == some a.sharding

/-- A tree of results matches the tree of specifications. -/
def fitsTree (t : Tree Arr) (s : Tree Spec) : Bool :=
  t.treedef == s.treedef && t.leaves.length == s.leaves.length &&
    (t.leaves.zip s.leaves).all (fun p => fits p.1 p.2)

/-- dispatchers.py:229-237: `_cp_wrapper`, with the call it makes. -/
def wrapperResult (func : Call → Except Err (Tree Arr)) (discard : Bool) (call : Call)
    (inp : Tree Arr) : Except Err (Tree Arr) :=
  match func call with
  | .error e => .error e
  | .ok r =>
    if discard then
      .ok (leafTree ⟨[], boolD, trueD,
        replicated (sortById (dedup (inp.leaves.flatMap (fun a => a.sharding.devices))))⟩)
    else .ok r

/-- dispatchers.py:189-248: `dispatch`.  Returns the result and the calls of the function
that were made. -/
def dispatch (J : Jax) (P : Process) (func : Call → Except Err (Tree Arr))
    (input : Option (Tree Inp)) (specs : Option (Tree Spec)) (args kwargs : Tree Leaf) :
    Except Err (Tree Arr) × List Call :=
  match prepare J P input specs args kwargs with
  | .error e => (.error e, [])
  | .ok p =>
    let call : Call := ⟨if input.isSome then some p.inp else none, p.args, p.kwargs⟩
    (match wrapperResult func specs.isNone call p.inp with
      | .error e => .error e
      | .ok r => if fitsTree r p.cpuSpecs then toFinal r p.specs else .error .mismatch,
     [call])

end Verif.Transport
