/-!
# Exporting a JAX module (`orbax.export`)

Models `TensorFlowModule` (export/orbax/export/modules/tensorflow_module.py),
`ServingConfig` (serving_config.py), `TensorFlowExport` (tensorflow_export.py),
`ObmExport` (obm_export.py) and `ExportManager` (export_manager.py).

Simplifications, for the whole file: functions are total functions on values,
`jax2tf.convert` and `tf.function` do not change what a function computes, and
`tf.saved_model.save` followed by `load` gives back the signatures with the
values that the variables had when the model was saved.  DTensor export,
gradients, polymorphic shapes and compilation options are not modelled.
Default values of inputs are the subject of `Verif/Export/Signature.lean`.
-/

namespace Verif.Export.Manager

/-- A nested structure of tensors, as far as tuples matter. -/
inductive Val (V : Type) where
  | leaf (v : V)
  | tuple (xs : List (Val V))

/-- A parameter: its shape and type, and its value. -/
structure Arr (F A : Type) where
  form : F
  value : A

/-- A PyTree of parameters: its structure and its leaves. -/
structure Params (T F A : Type) where
  td : T
  leaves : List (Arr F A)

/-- The exceptions. -/
inductive Err where
  | treedef
  | shape
  | noSignatureKey
  | duplicateKey
  | methodKey
  | arity
  | passthrough
  | unbound
  | noPreprocessor
  | notFound
  | notImplemented
  deriving DecidableEq

/-- `apply_fn(params, inputs)`. -/
abbrev ApplyFn (T F A V : Type) := Params T F A → Val V → Val V

/-- `TensorFlowModule` (tensorflow_module.py:91-160): the structure and the
values of the TF variables, the JAX parameters, the functions by name. -/
structure Module (T F A V : Type) where
  varTd : T
  vars : List (Arr F A)
  params : Params T F A
  fns : List (String × ApplyFn T F A V)

/-- The constructor (tensorflow_module.py:98-197): one variable for each
parameter. -/
def mkModule {T F A V : Type} (params : Params T F A)
    (fns : List (String × ApplyFn T F A V)) : Module T F A V :=
  { varTd := params.td, vars := params.leaves, params := params, fns := fns }

/-- `v.assign(new_v)` one variable after another (tensorflow_module.py:455-462).
Assigning a value of another shape or type raises; the variables before it have
been assigned. -/
def assign {F A : Type} [DecidableEq F] :
    List (Arr F A) → List (Arr F A) → List (Arr F A) × Option Err
  | v :: vs, n :: ns =>
    if v.form = n.form then
      (n :: (assign vs ns).1, (assign vs ns).2)
    else (v :: vs, some .shape)
  | vs, _ => (vs, none)

/-- `update_variables` (tensorflow_module.py:428-462): the JAX parameters are
replaced first, then the structure is compared, then the variables are
assigned. -/
def update {T F A V : Type} [DecidableEq T] [DecidableEq F] (m : Module T F A V)
    (p : Params T F A) : Module T F A V × Option Err :=
  let m' := { m with params := p }
  if p.td ≠ m.varTd then (m', some .treedef)
  else ({ m' with vars := (assign m.vars p.leaves).1 }, (assign m.vars p.leaves).2)

/-- `methods[key]` applied to an input: the function on the current values of
the variables (tensorflow_module.py:369-390, 419-421). -/
def method {T F A V : Type} (m : Module T F A V) (f : ApplyFn T F A V) (x : Val V) : Val V :=
  f ⟨m.varTd, m.vars⟩ x

/-- `jax_methods[key]` applied to an input: the function on the JAX parameters
(tensorflow_module.py:58-66, 424-426). -/
def jaxMethod {T F A V : Type} (m : Module T F A V) (f : ApplyFn T F A V) (x : Val V) : Val V :=
  f m.params x

/-- `ServingConfig` (serving_config.py:29-157). -/
structure Config (V : Type) where
  keys : List String
  pre : Option (List (Val V) → Val V)
  post : Option (List (Val V) → Val V)
  methodKey : Option String
  passthrough : Bool

/-- `ServingConfig.get_infer_step` on a mapping (serving_config.py:234-269). -/
def inferStep {V X : Type} (c : Config V) (fns : List (String × X)) : Except Err X :=
  match c.methodKey with
  | none =>
    match fns with
    | [(_, f)] => .ok f
    | _ => .error .methodKey
  | some k =>
    match fns.lookup k with
    | none => .error .methodKey
    | some f => .ok f

/-- `inference_fn` of `ServingConfig.bind` (serving_config.py:301-362). -/
def inference {V : Type} (c : Config V) (step : Val V → Val V) (inputs : List (Val V)) :
    Except Err (Val V) :=
  let front : Except Err (Val V × Option (Val V)) :=
    match c.pre with
    | some pre =>
      if c.passthrough then
        match pre inputs with
        | .tuple [a, b] => .ok (a, some b)
        | _ => .error .passthrough
      else .ok (pre inputs, none)
    | none =>
      match inputs with
      | [x] => .ok (x, none)
      | _ => .error .arity
  match front with
  | .error e => .error e
  | .ok (x, extra) =>
    match c.post with
    | none => .ok (step x)
    | some post =>
      if c.passthrough then
        match extra with
        | some e => .ok (post [step x, e])
        | none => .error .unbound
      else .ok (post [step x])

/-- A serving signature: the configuration it was made for and its function.
It is applied to the module as it is when it is called. -/
abbrev Sigs (T F A V : Type) := List (String × (Config V × ApplyFn T F A V))

/-- Entering one configuration under all its keys
(tensorflow_export.py:165-172). -/
def enter {T F A V : Type} (s : Config V × ApplyFn T F A V) :
    List String → Sigs T F A V → Except Err (Sigs T F A V)
  | [], sigs => .ok sigs
  | k :: ks, sigs =>
    if (sigs.lookup k).isSome then .error .duplicateKey else enter s ks (sigs ++ [(k, s)])

/-- `_process_serving_configs` (tensorflow_export.py:124-187), not in
`obx_export_tf_preprocess_only` mode.  An empty `signature_key` is refused when
the configuration is made (serving_config.py:174-175). -/
def signatures {T F A V : Type} (fns : List (String × ApplyFn T F A V)) :
    List (Config V) → Sigs T F A V → Except Err (Sigs T F A V)
  | [], sigs => .ok sigs
  | c :: cs, sigs =>
    if c.keys = [] then .error .noSignatureKey
    else
      match inferStep c fns with
      | .error e => .error e
      | .ok f =>
        match enter (c, f) c.keys sigs with
        | .error e => .error e
        | .ok sigs' => signatures fns cs sigs'

/-- Calling `serving_signatures[key](*inputs)`. -/
def call {T F A V : Type} (m : Module T F A V) (sigs : Sigs T F A V) (k : String)
    (inputs : List (Val V)) : Except Err (Val V) :=
  match sigs.lookup k with
  | none => .error .notFound
  | some (c, f) => inference c (method m f) inputs

/-- A SavedModel: what each signature computes. -/
abbrev Saved (V : Type) := String → List (Val V) → Except Err (Val V)

/-- `TensorFlowExport.save` (tensorflow_export.py:51-107): overrides replace the
signatures of the same key.  With `inference_converter_options` the model is
written to a temporary directory that is removed. -/
def save {T F A V : Type} (m : Module T F A V) (sigs : Sigs T F A V)
    (overrides : List (String × (List (Val V) → Except Err (Val V)))) (converter : Bool)
    (path : String) (disk : List (String × Saved V)) : List (String × Saved V) :=
  if converter then disk
  else
    (path, fun k inputs =>
      match overrides.lookup k with
      | some g => g inputs
      | none => call m sigs k inputs) :: disk

/-- `TensorFlowExport.load` (tensorflow_export.py:109-112). -/
def load {V : Type} (disk : List (String × Saved V)) (path : String) : Except Err (Saved V) :=
  match disk.lookup path with
  | none => .error .notFound
  | some s => .ok s

/-- `ExportModelType`. -/
inductive Version where
  | tfSavedModel
  | orbaxModel
  deriving DecidableEq

/-- `ExportManager.save` (export_manager.py:77-90, 118-137): for an Orbax Model
`ObmExport.save`, which has no body (obm_export.py:54-65). -/
def managerSave {T F A V : Type} (v : Version) (m : Module T F A V) (sigs : Sigs T F A V)
    (overrides : List (String × (List (Val V) → Except Err (Val V))))
    (path : String) (disk : List (String × Saved V)) : List (String × Saved V) :=
  match v with
  | .orbaxModel => disk
  | .tfSavedModel => save m sigs overrides false path disk

/-- `ExportManager.load` (export_manager.py:139-150; obm_export.py:67-72). -/
def managerLoad {V : Type} (v : Version) (disk : List (String × Saved V)) (path : String) :
    Except Err (Saved V) :=
  match v with
  | .orbaxModel => .error .notImplemented
  | .tfSavedModel => load disk path

mutual
  /-- `tf.nest.flatten`. -/
  def nestFlatten {V : Type} : Val V → List V
    | .leaf v => [v]
    | .tuple xs => nestFlattenAll xs
  def nestFlattenAll {V : Type} : List (Val V) → List V
    | [] => []
    | x :: xs => nestFlatten x ++ nestFlattenAll xs
end

/-- `_process_serving_configs` in `obx_export_tf_preprocess_only` mode
(tensorflow_export.py:147-161): the keys that are entered.  The function of each
refers to the loop variable `sc`. -/
def preKeys {V : Type} : List (Config V) → List String → Except Err (List String)
  | [], ks => .ok ks
  | c :: cs, ks =>
    if c.keys = [] then .error .noSignatureKey
    else if c.pre.isNone then .error .noPreprocessor
    else if (c.keys.any fun k => ks.contains k) || !decide c.keys.Nodup then .error .duplicateKey
    else preKeys cs (ks ++ c.keys)

/-- Calling a signature in that mode: `sc.tf_preprocessor(*inputs)` where `sc`
is what the loop left in it (tensorflow_export.py:154-155). -/
def preCall {V : Type} (cs : List (Config V)) (k : String) (inputs : List (Val V)) :
    Except Err (List V) :=
  match preKeys cs [] with
  | .error e => .error e
  | .ok ks =>
    if ks.contains k then
      match cs.getLast? with
      | none => .error .notFound
      | some sc =>
        match sc.pre with
        | none => .error .noPreprocessor
        | some pre => .ok (nestFlatten (pre inputs))
    else .error .notFound

/-- `ValidationManager._create_baseline_fns` (validation_manager.py:108-113): the
configurations bound to the JAX methods; a later configuration replaces an
earlier one with the same key. -/
def baseline {T F A V : Type} (m : Module T F A V) (cs : List (Config V)) (k : String)
    (inputs : List (Val V)) : Except Err (Val V) :=
  match (cs.filter fun c => c.keys.contains k).getLast? with
  | none => .error .notFound
  | some c =>
    match inferStep c m.fns with
    | .error e => .error e
    | .ok f => inference c (jaxMethod m f) inputs

end Verif.Export.Manager
