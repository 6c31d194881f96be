/-!
# The module of an Orbax Model export (`orbax.export.JaxModule`)

Models `JaxModule.__init__` and its properties (export/orbax/export/jax_module.py:34-48,
78-228, 231-381), `ObmModule.__init__` with everything it calls
(export/orbax/export/modules/obm_module.py:35-75, 81-215, 217-242, 244-338, 340-359,
361-410) and `utils.get_lowering_platforms`, `utils.to_bfloat16`
(export/orbax/export/utils.py:560-626).

Simplifications, for the whole file: a Python mapping is a list of keys and values,
in the order of the mapping, and equality of two options that are mappings is
equality of the lists; the mesh, the functions and the trees of shapes are opaque
numbers, except that a tree may be a mapping; the set of platforms of the manifest
is a parameter; the module of a TF export is only what is handed to it, since
`TensorFlowModule` is modelled elsewhere (Signature.lean); the parameters of the
model are the list of the leaves of the tree.
-/

namespace Verif.Export.Obm

/-- A Python object given for shapes or for values of symbols: `None`, a mapping, or
something else. -/
inductive Obj where
  | none
  | leaf (n : Nat)
  | map (m : List (String × Obj))

/-- `native_serialization_platforms`: a string or a sequence (obm_configs.py:382). -/
inductive Platforms where
  | one (p : String)
  | many (ps : List String)
  deriving DecidableEq

/-- `polymorphic_constraints` (obm_configs.py:385-387): a mapping, a sequence, `None`,
or an object of a wrong type. -/
inductive Constraints where
  | none
  | same (cs : List String)
  | perFn (m : List (String × List String))
  | wrong
  deriving DecidableEq

/-- `Jax2ObmOptions` (obm_configs.py:353-397). -/
structure Options where
  platforms : Option Platforms := .none
  checkpointPath : Option String := .none
  weightsName : Option String := .none
  constraints : Constraints := .none
  xlaFlags : Option (List (String × List String)) := .none
  mesh : Option Nat := .none
  persistXla : Bool := true
  bf16 : Bool := false
  autoLayout : Bool := false
  disabledChecks : List String := []
  saveShlo : Bool := false
  loaderType : Option Int := .none
  deriving DecidableEq

/-- `jax2obm_options`: one object or a mapping from method keys. -/
inductive OptArg where
  | one (o : Options)
  | perFn (m : List (String × Options))

/-- One entry of `jax2obm_kwargs`. `unread` is an entry with a key that the code never
looks up. -/
inductive Kw where
  | platforms (p : Option Platforms)
  | checkpointPath (p : Option String)
  | weightsName (p : Option String)
  | constraints (c : Constraints)
  | xlaFlags (f : Option (List (String × List String)))
  | mesh (m : Option Nat)
  | persistXla (b : Bool)
  | bf16 (b : Bool)
  | saveShlo (b : Bool)
  | loaderType (l : Option Int)
  | unread (key : String)
  deriving DecidableEq

/-- A function to export: `ApplyFn`, or `ApplyFnInfo` if `isInfo`. -/
structure Fn where
  id : Nat
  isInfo : Bool
  deriving DecidableEq

/-- `apply_fn`. -/
inductive FnArg where
  | one (f : Fn)
  | many (m : List (String × Fn))

/-- The kinds of leaves that `to_bfloat16` tells apart (utils.py:605-620): a shape with
a dtype, an array, a Python float, something else. -/
inductive LeafKind where
  | struct
  | array
  | pyFloat
  | other
  deriving DecidableEq

/-- A leaf of the parameters; `value` stands for shape, sharding and contents. -/
structure Leaf where
  kind : LeafKind
  dtype : String
  value : Nat
  deriving DecidableEq

/-- The exceptions. -/
inductive Err where
  | value
  | type
  | attribute
  | notImplemented
  deriving DecidableEq

/-- `constants.DEFAULT_METHOD_KEY` (constants.py:32). -/
def defaultKey : String := "jax_module_default_method"

/-- `constants.DEFAULT_WEIGHTS_NAME` (constants.py:63). -/
def defaultWeights : String := "weights"

/-- `m[key]`. -/
def get {A : Type} (m : List (String × A)) (k : String) : Option A :=
  (m.find? (fun e => e.1 == k)).map (·.2)

/-- `key in m`. -/
def hasKey {A : Type} (m : List (String × A)) (k : String) : Bool := m.any (fun e => e.1 == k)

/-- `a.keys() == b.keys()`: the same set of keys. -/
def sameKeys {A B : Type} (a : List (String × A)) (b : List (String × B)) : Bool :=
  a.all (fun e => hasKey b e.1) && b.all (fun e => hasKey a e.1)

/-- `_get_shared_value` (obm_module.py:35-75); `field` is `getattr(·, field_name)`, `keys`
the keys of the functions, or `None`. -/
def shared {A : Type} [DecidableEq A] (field : Options → A) (keys : Option (List String)) :
    OptArg → Except Err A
  | .one o => .ok (field o)
  | .perFn [] => .error .value
  | .perFn ((k, o) :: m) =>
    if ((keys.getD []).all fun x => hasKey ((k, o) :: m) x) = false then .error .value
    else if ((k, o) :: m).all (fun e => field e.2 == field o) then .ok (field o)
    else .error .value

/-- The option value of the entry of `kwargs` that `pick` looks up, or the default. -/
def kwGet {A : Type} (kw : List Kw) (pick : Kw → Option A) (dflt : A) : A :=
  (kw.findSome? pick).getD dflt

/-- `_jax2obm_kwargs_to_options` (obm_module.py:217-242). -/
def fromKwargs (kw : List Kw) : Options where
  platforms := kwGet kw (fun | .platforms p => some p | _ => none) none
  checkpointPath := kwGet kw (fun | .checkpointPath p => some p | _ => none) none
  weightsName := kwGet kw (fun | .weightsName p => some p | _ => none) none
  constraints := kwGet kw (fun | .constraints c => some c | _ => none) .none
  xlaFlags := kwGet kw (fun | .xlaFlags f => some f | _ => none) none
  mesh := kwGet kw (fun | .mesh m => some m | _ => none) none
  persistXla := kwGet kw (fun | .persistXla b => some b | _ => none) true
  bf16 := kwGet kw (fun | .bf16 b => some b | _ => none) false
  saveShlo := kwGet kw (fun | .saveShlo b => some b | _ => none) false
  loaderType := kwGet kw (fun | .loaderType l => some l | _ => none) none

/-- `_to_bfloat16_leaf` (utils.py:605-620): only leaves that have a dtype, and only if it
is float32. -/
def bf16Leaf (l : Leaf) : Leaf :=
  match l.kind with
  | .struct => if l.dtype = "float32" then { l with dtype := "bfloat16" } else l
  | .array => if l.dtype = "float32" then { l with dtype := "bfloat16" } else l
  | .pyFloat => l
  | .other => l

/-- Puts an entry in its place in a sorted list (helper of `sortKeys`). -/
def insertKey {A : Type} (e : String × A) : List (String × A) → List (String × A)
  | [] => [e]
  | f :: m => if e.1 ≤ f.1 then e :: f :: m else f :: insertKey e m

/-- The dictionary with its keys sorted, as `tree_flatten` and `tree_unflatten` leave it. -/
def sortKeys {A : Type} : List (String × A) → List (String × A)
  | [] => []
  | e :: m => insertKey e (sortKeys m)

/-- `to_bfloat16(apply_fn)` (obm_module.py:170, utils.py:622-626): functions are leaves
without a dtype, and a dictionary is rebuilt with sorted keys. -/
def bf16Fn : FnArg → FnArg
  | .one f => .one f
  | .many m => .many (sortKeys m)

/-- One of the two arguments that go with the functions, for a mapping of functions
(obm_module.py:289-303, 305-328). -/
def normArg (fns : List (String × Fn)) : Obj → Except Err (List (String × Obj))
  | .none => .ok (fns.map fun e => (e.1, Obj.none))
  | .leaf _ => .error .type
  | .map m => if sameKeys fns m then .ok m else .error .value

/-- `_normalize_apply_fn_map` (obm_module.py:244-338). -/
def normalize (fn : FnArg) (shape symbols : Obj) :
    Except Err (List (String × Fn) × List (String × Obj) × List (String × Obj)) :=
  match fn with
  | .one f => .ok ([(defaultKey, f)], [(defaultKey, shape)], [(defaultKey, symbols)])
  | .many [] => .error .value
  | .many (e :: m) => do
    let sh ← normArg (e :: m) shape
    let sy ← normArg (e :: m) symbols
    return (e :: m, sh, sy)

/-- `_maybe_set_polymorphic_constraints` (obm_module.py:361-410). -/
def constraintsFor (fns : List (String × Fn)) : Constraints → Except Err (List (String × List String))
  | .perFn m =>
    if m.length ≠ fns.length then .error .value
    else if fns.all (fun e => hasKey m e.1) then .ok m
    else .error .value
  | .none => .ok (fns.map fun e => (e.1, []))
  | .same cs => .ok (fns.map fun e => (e.1, cs))
  | .wrong => .error .type

/-- `get_lowering_platforms` (utils.py:560-589). -/
def lowering (allowed : List String) : Option Platforms → Except Err (Option (List String))
  | none => .ok none
  | some (.one p) => if [p.toLower].all (fun q => allowed.contains q) then .ok (some [p.toLower]) else .error .value
  | some (.many ps) =>
    if (ps.map String.toLower).all (fun q => allowed.contains q) then .ok (some (ps.map String.toLower))
    else .error .value

/-- `_maybe_set_orbax_checkpoint_path` (obm_module.py:340-359): the path and the name of
the weights. -/
def checkpoint (keys : Option (List String)) (o : OptArg) : Except Err (Option String × Option String) := do
  match ← shared (·.checkpointPath) keys o with
  | none => return (none, none)
  | some p =>
    let w ← shared (·.weightsName) keys o
    -- `weights_name or DEFAULT`: `None` and the empty name are replaced
    return (some p, some (match w with | none => defaultWeights | some n => if n = "" then defaultWeights else n))

/-- An `ObmModule`. -/
structure ObmModule where
  options : OptArg
  fns : List (String × Fn)
  shapes : List (String × Obj)
  symbols : List (String × Obj)
  params : List Leaf
  mesh : Option Nat
  constraints : List (String × List String)
  platforms : Option (List String)
  saveShlo : Bool
  checkpointPath : Option String
  weightsName : Option String

/-- `x is None`. -/
def Obj.isNone : Obj → Bool
  | .none => true
  | _ => false

/-- What `ObmModule.__init__` does with the two arguments for options
(obm_module.py:139-152): empty kwargs are no kwargs. -/
def chooseOptions (kwargs : Option (List Kw)) (options : Option OptArg) : Except Err OptArg :=
  match kwargs, options with
  | some (_ :: _), some _ => .error .value
  | some (k :: kw), none => .ok (.one (fromKwargs (k :: kw)))
  | _, none => .ok (.one {})
  | _, some o => .ok o

/-- The keys the options have to have (obm_module.py:154-162). -/
def optionKeys (fn : FnArg) : OptArg → Except Err (Option (List String))
  | .one _ => .ok none
  | .perFn _ =>
    match fn with
    | .one _ => .error .value
    | .many m => .ok (some (m.map (·.1)))

/-- `ObmModule.__init__` (obm_module.py:81-215). -/
def mkObm (allowed : List String) (params : List Leaf) (fn : FnArg) (shape symbols : Obj)
    (kwargs : Option (List Kw)) (options : Option OptArg) : Except Err ObmModule := do
  if shape.isNone && !symbols.isNone then throw .value
  let o ← chooseOptions kwargs options
  let keys ← optionKeys fn o
  let bf ← shared (·.bf16) keys o
  let (fns, shapes, syms) ← normalize (if bf then bf16Fn fn else fn) shape symbols
  let mesh ← shared (·.mesh) keys o
  let cons ← constraintsFor fns (← shared (·.constraints) keys o)
  let plats ← lowering allowed (← shared (·.platforms) keys o)
  let _ ← shared (·.xlaFlags) keys o
  let _ ← shared (·.persistXla) keys o
  let shlo ← shared (·.saveShlo) keys o
  let (path, weights) ← checkpoint keys o
  return { options := o, fns := fns, shapes := shapes, symbols := syms,
           params := if bf then params.map bf16Leaf else params, mesh := mesh,
           constraints := cons, platforms := plats, saveShlo := shlo,
           checkpointPath := path, weightsName := weights }

/-- `constants.ExportModelType` (constants.py:20-24). -/
inductive Version where
  | tf
  | obm
  deriving DecidableEq

/-- The arguments that only the TF export reads (jax_module.py:203-214). -/
structure TfArgs where
  trainable : Option Bool := none
  jax2tf : Option (List (String × String)) := none
  jitCompile : Bool := true
  pspecs : Option Nat := none
  consolidate : Option Bool := none
  deriving DecidableEq

/-- What a `JaxModule` holds. -/
inductive Module where
  | tf (params : List Leaf) (fn : FnArg) (shape : Obj) (args : TfArgs)
  | obm (m : ObmModule)

/-- `_is_apply_fn_info` (jax_module.py:34-48). -/
def isInfo : FnArg → Bool
  | .one f => f.isInfo
  | .many m => m.any (fun e => e.2.isInfo)

/-- `JaxModule.__init__` (jax_module.py:78-228). -/
def mkModule (allowed : List String) (v : Version) (params : List Leaf) (fn : FnArg) (shape symbols : Obj)
    (args : TfArgs) (kwargs : Option (List Kw)) (options : Option OptArg) : Except Err Module := do
  if kwargs.isSome && options.isSome then throw .value
  match v with
  | .tf =>
    if !symbols.isNone then throw .value
    if isInfo fn then throw .value
    return .tf params fn shape args
  | .obm => return .obm (← mkObm allowed params fn shape symbols kwargs options)

/-- `JaxModule.save_shlo_to_file` (jax_module.py:373-381). `ObmModule` has the value as
`_save_shlo_to_file` (obm_module.py:207) and no attribute `save_shlo_to_file`. -/
def readSaveShlo : Module → Except Err Bool
  | .tf .. => .error .type
  | .obm _ => .error .attribute

/-- `JaxModule.input_polymorphic_shape_map` (jax_module.py:290-300); the TF side is
modelled elsewhere and is `tfValue` here. -/
def readShapes (tfValue : List (String × Obj)) : Module → Except Err (List (String × Obj))
  | .tf .. => .ok tfValue
  | .obm _ => .error .type

/-- `JaxModule.apply_fn_map` (jax_module.py:230-247), for an Orbax Model. -/
def readFns (tfValue : List (String × Fn)) : Module → List (String × Fn)
  | .tf .. => tfValue
  | .obm m => m.fns

end Verif.Export.Obm
