/-!
# Model of saving and restoring arrays through the Pathways persistence service

Models `CloudPathwaysArrayHandler`
(`/repo/checkpoint/orbax/checkpoint/_src/serialization/cloud_pathways_array_handler.py:30-323`), the requests of
`cloud_pathways_helper.py:30-282` and the choice of the handler in `pathways_handler_registry.py:36-166`.

The service itself is not part of the code: it is a table of what has been written, by location and name, that
refuses to read another shape than was written.  Simplifications: meshes and partition specs are numbers and lists
of axis names; timeouts, base64 and the JSON text of requests are left out.
-/

namespace Verif.Handlers.Pathways

/-- Types of array elements. -/
inductive Elem
  | bool | f8 | f16 | bf16 | f32 | f64 | s4 | s8 | s16 | s32 | s64 | u4 | u8 | u16 | u32 | u64 | c64 | c128
deriving DecidableEq, Repr

/-- `dtype`: of plain elements or of random keys of an implementation. -/
inductive DType
  | raw (e : Elem)
  | key (impl : String)
deriving DecidableEq, Repr

/-- `NamedSharding(mesh, spec)`. -/
structure Sharding where
  mesh : Nat
  spec : List (Option String)
deriving DecidableEq, Repr

/-- A `jax.Array`. -/
structure Arr (V : Type) where
  dtype : DType
  shape : List Nat
  data : V
  sharding : Sharding
deriving DecidableEq, Repr

structure Info where
  dir : String
  name : String
deriving DecidableEq, Repr

inductive Err
  | typeError | emptyInput | lengths | castOnSave | noStore | startFailed | commitFailed
  | notArrayArgs | noSharding | notNamed | noArgs | metadata | unsupportedType | notFound | otherShape | badCast
  | badKey | notImplemented
deriving DecidableEq, Repr

/-- What `jax.random.key_data` of a key has after the shape of the key, for each implementation. -/
abbrev Words := String → List Nat

/-- `dtype_to_xla_primitive_type_str`, `cloud_pathways_helper.py:30-55`. -/
def xlaType : Elem → Option String
  | .bf16 => some "BF16"
  | .f32 => some "F32"
  | .f64 => some "F64"
  | .s8 => some "S8"
  | .s16 => some "S16"
  | .s32 => some "S32"
  | .s64 => some "S64"
  | .u8 => some "U8"
  | .u16 => some "U16"
  | .u32 => some "U32"
  | .u64 => some "U64"
  | _ => none

/-- Entry of the array metadata: `ArrayMetadata`. -/
structure Entry where
  name : String
  shape : List Nat
  dtype : Option DType
  impl : Option String
deriving DecidableEq, Repr

/-- `persistenceWriteRequest` and the array it writes. -/
structure Write (V : Type) where
  dir : String
  name : String
  elem : Elem
  shape : List Nat
  data : V
deriving DecidableEq, Repr

/-! ### Saving -/

/-- `check_input_arguments`, `types.py:196-204`, for two lists that are there. -/
def checkLengths (n m : Nat) : Except Err Unit :=
  if n = 0 then .error .emptyInput
  else if m ≠ n then .error .lengths
  else .ok ()

/-- `jax.random.key_data` for keys, other arrays as they are, `cloud_pathways_array_handler.py:114-118`. -/
def physical (words : Words) {V : Type} (v : Arr V) : Elem × List Nat :=
  match v.dtype with
  | .raw e => (e, v.shape)
  | .key i => (.u32, v.shape ++ words i)

def implOf {V : Type} (v : Arr V) : Option String :=
  match v.dtype with
  | .raw _ => none
  | .key i => some i

/-- `array_metadatas`, `cloud_pathways_array_handler.py:120-131`. -/
def entries (words : Words) {V : Type} : List (Arr V) → List Info → List (Option DType) → List Entry
  | v :: vs, i :: is, a :: as =>
    { name := i.name, shape := (physical words v).2, dtype := a, impl := implOf v } :: entries words vs is as
  | _, _, _ => []

/-- The write requests, in the order of the arrays, `cloud_pathways_array_handler.py:148-152`. -/
def writes (words : Words) {V : Type} : List (Arr V) → List Info → List (Write V)
  | v :: vs, i :: is =>
    { dir := i.dir, name := i.name, elem := (physical words v).1, shape := (physical words v).2, data := v.data } ::
      writes words vs is
  | _, _ => []

/-- `list(map(f, …))`: starts the writes one after the other until one cannot be started. -/
def launch {V : Type} (bad : Write V → Bool) : List (Write V) → List (Write V) × Bool
  | [] => ([], true)
  | w :: l => if bad w then ([], false) else (w :: (launch bad l).1, (launch bad l).2)

/-- What `serialize` has done when it returns or raises: the writes that are running, and the future if it
returned: the metadata to be written and the writes to be waited for. -/
structure Started (V : Type) where
  running : List (Write V)
  out : Except Err (Option (String × List Entry) × List (Write V))

/-- `serialize`, `cloud_pathways_array_handler.py:93-159`. -/
def serialize (words : Words) {V : Type} (store : Bool) (bad : Write V → Bool) (vals : List (Arr V))
    (infos : List Info) (args : Option (List (Option DType))) : Started V :=
  match checkLengths vals.length infos.length with
  | .error e => ⟨[], .error e⟩
  | .ok () =>
    match args with
    | none => ⟨[], .error .typeError⟩
    | some as =>
      if as.length ≠ vals.length then ⟨[], .error .lengths⟩
      else if as.any Option.isSome then ⟨[], .error .castOnSave⟩
      else if vals.any (fun v => (implOf v).isSome) && !store then ⟨[], .error .noStore⟩
      else
        let run := launch bad (writes words vals infos)
        if run.2 then
          ⟨run.1, .ok (if store then (infos.head?.map fun i => (i.dir, entries words vals infos as)) else none,
            run.1)⟩
        else ⟨run.1, .error .startFailed⟩

/-- State of one write in the service. -/
inductive Status
  | running | ok | failed
deriving DecidableEq, Repr

/-- Where the background coroutine is: writing metadata, waiting for write number `i`, or ended. -/
inductive Waiter
  | metadata | at (i : Nat) | done | raised
deriving DecidableEq, Repr

structure Commit where
  status : List Status
  metaOk : Bool
  waiter : Waiter

/-- Steps of `_background_serialize`, `cloud_pathways_array_handler.py:72-81`, and of the service. -/
inductive Step : Commit → Commit → Prop
  | serve {c : Commit} {i : Nat} (h : c.status[i]? = some .running) (good : Bool) :
    Step c { c with status := c.status.set i (if good then .ok else .failed) }
  | metaDone {c : Commit} (h : c.waiter = .metadata) :
    Step c { c with
      metaOk := true
      waiter := .at 0 }
  | metaFail {c : Commit} (h : c.waiter = .metadata) : Step c { c with waiter := .raised }
  | next {c : Commit} {i : Nat} (h : c.waiter = .at i) (hs : c.status[i]? = some .ok) :
    Step c { c with waiter := .at (i + 1) }
  | raise {c : Commit} {i : Nat} (h : c.waiter = .at i) (hs : c.status[i]? = some .failed) :
    Step c { c with waiter := .raised }
  | finish {c : Commit} {i : Nat} (h : c.waiter = .at i) (hs : i = c.status.length) :
    Step c { c with waiter := .done }

inductive Reach (n : Nat) : Commit → Prop
  | init : Reach n ⟨List.replicate n .running, false, .metadata⟩
  | step {c d : Commit} (h : Reach n c) (s : Step c d) : Reach n d

/-! ### Restoring -/

/-- `arg.sharding`. -/
inductive ShardingArg
  | none | named (s : Sharding) | other
deriving DecidableEq, Repr

/-- `ArrayRestoreArgs`, or another kind of argument. -/
structure Arg where
  isArray : Bool
  sharding : ShardingArg
  meshAxes : Option Sharding
  shape : Option (List Nat)
  dtype : Option DType
deriving DecidableEq, Repr

/-- What is known about an array before the request. -/
structure Want where
  sharding : Sharding
  shape : List Nat
  dtype : DType
deriving DecidableEq, Repr

/-- An array in the service. -/
structure Blob (V : Type) where
  elem : Elem
  shape : List Nat
  data : V
deriving DecidableEq, Repr

/-- The service: what is stored by location and name, and how elements are converted. -/
structure Service (V : Type) where
  table : String → String → Option (Blob V)
  cast : Elem → Elem → V → Option V

def mapE {α β : Type} (f : α → Except Err β) : List α → Except Err (List β)
  | [] => .ok []
  | a :: l =>
    match f a with
    | .error e => .error e
    | .ok b =>
      match mapE f l with
      | .error e => .error e
      | .ok bs => .ok (b :: bs)

/-- The checks of an argument, `cloud_pathways_array_handler.py:178-201`. -/
def shardingOf (a : Arg) : Except Err Sharding :=
  if a.isArray = false then .error .notArrayArgs
  else
    match a.sharding with
    | .none =>
      match a.meshAxes with
      | none => .error .noSharding
      | some s => .ok s
    | .other => .error .notNamed
    | .named s => .ok s

/-- Shapes and types that are not given are those of the files, `cloud_pathways_array_handler.py:202-217`. -/
def fill (a : Arg) (s : Sharding) (m : Option (List Nat × Elem)) : Except Err Want :=
  match a.shape, a.dtype, m with
  | some sh, some dt, _ => .ok ⟨s, sh, dt⟩
  | _, _, none => .error .metadata
  | sh, dt, some (fs, fe) => .ok ⟨s, sh.getD fs, dt.getD (.raw fe)⟩

/-- `array_metadatas_cache`: the last entry with the name, `cloud_pathways_array_handler.py:219-235`. -/
def cached (metas : List Entry) (name : String) : Option Entry := metas.reverse.find? fun e => e.name == name

/-- `inputs_by_global_mesh`, a `defaultdict(list)`, `cloud_pathways_array_handler.py:239-241`. -/
def addTo (g i : Nat) : List (Nat × List Nat) → List (Nat × List Nat)
  | [] => [(g, [i])]
  | x :: l => if x.1 = g then (x.1, x.2 ++ [i]) :: l else x :: addTo g i l

def groupsFrom : List Nat → Nat → List (Nat × List Nat) → List (Nat × List Nat)
  | [], _, acc => acc
  | g :: l, i, acc => groupsFrom l (i + 1) (addTo g i acc)

def groups (meshes : List Nat) : List (Nat × List Nat) := groupsFrom meshes 0 []

/-- One element of a bulk read request. -/
structure Read where
  name : String
  elem : Elem
  shape : List Nat
  sharding : Sharding
deriving DecidableEq, Repr

/-- The request for one array, `cloud_pathways_array_handler.py:259-292` and `get_read_request`: keys are read as
their data, with nothing partitioned in the added dimensions. -/
def request (words : Words) (info : Info) (w : Want) : Except Err Read :=
  match w.dtype with
  | .raw e => if (xlaType e).isNone then .error .unsupportedType else .ok ⟨info.name, e, w.shape, w.sharding⟩
  | .key i => .ok ⟨info.name, .u32, w.shape ++ words i,
      { w.sharding with spec := w.sharding.spec ++ List.replicate (words i).length none }⟩

/-- The service carries out a read. -/
def serve {V : Type} (svc : Service V) (loc : String) (r : Read) : Except Err (Arr V) :=
  match svc.table loc r.name with
  | none => .error .notFound
  | some b =>
    if b.shape ≠ r.shape then .error .otherShape
    else
      match svc.cast b.elem r.elem b.data with
      | none => .error .badCast
      | some v => .ok ⟨.raw r.elem, r.shape, v, r.sharding⟩

/-- `jax.random.wrap_key_data`. -/
def wrap (words : Words) {V : Type} (impl : String) (a : Arr V) : Except Err (Arr V) :=
  if a.dtype = .raw .u32 ∧ a.shape = a.shape.take (a.shape.length - (words impl).length) ++ words impl then
    .ok ⟨.key impl, a.shape.take (a.shape.length - (words impl).length), a.data,
      { a.sharding with spec := a.sharding.spec.take (a.shape.length - (words impl).length) }⟩
  else .error .badKey

/-- What is made of the array that was read, `cloud_pathways_array_handler.py:305-325`. -/
def finish (words : Words) {V : Type} (metas : List Entry) (info : Info) (w : Want) (a : Arr V) : Except Err (Arr V) :=
  match w.dtype with
  | .key i => wrap words i a
  | .raw _ =>
    match cached metas info.name with
    | none => .ok a
    | some e =>
      match e.impl with
      | none => .ok a
      | some i => wrap words i a

/-- Request, read and conversion of one group, from the location of its first array,
`cloud_pathways_array_handler.py:245-303`. -/
def readGroup (words : Words) {V : Type} (svc : Service V) (metas : List Entry) (infos : Nat → Info)
    (wants : Nat → Want) (idxs : List Nat) : Except Err (List (Arr V)) :=
  match idxs with
  | [] => .ok []
  | i0 :: _ =>
    match mapE (fun i => request words (infos i) (wants i)) idxs with
    | .error e => .error e
    | .ok reqs =>
      match mapE (serve svc (infos i0).dir) reqs with
      | .error e => .error e
      | .ok arrs => mapE (fun x => finish words metas (infos x.1) (wants x.1) x.2) (idxs.zip arrs)

/-- `results[idx] = arr`. -/
def place {A : Type} : List Nat → List A → List (Option A) → List (Option A)
  | i :: is, a :: as, rs => place is as (rs.set i (some a))
  | _, _, rs => rs

def runGroups (words : Words) {V : Type} (svc : Service V) (metas : List Entry) (infos : Nat → Info)
    (wants : Nat → Want) : List (Nat × List Nat) → List (Option (Arr V)) → Except Err (List (Option (Arr V)))
  | [], rs => .ok rs
  | g :: l, rs =>
    match readGroup words svc metas infos wants g.2 with
    | .error e => .error e
    | .ok arrs => runGroups words svc metas infos wants l (place g.2 arrs rs)

/-- Combines arguments, shardings and file metadata. -/
def fillAll : List Arg → List Sharding → List (Option (List Nat × Elem)) → Except Err (List Want)
  | a :: as, s :: ss, m :: ms =>
    match fill a s m with
    | .error e => .error e
    | .ok w =>
      match fillAll as ss ms with
      | .error e => .error e
      | .ok ws => .ok (w :: ws)
  | _, _, _ => .ok []

/-- `deserialize`, `cloud_pathways_array_handler.py:161-327`.  `files` is what `metadata(infos)` finds, which is
asked for all arrays as soon as one argument is incomplete; `metas` is the array metadata, empty without a
store. -/
def deserialize (words : Words) {V : Type} (svc : Service V) (files : Info → Option (List Nat × Elem))
    (metas : List Entry) (infos : List Info) (args : Option (List Arg)) : Except Err (List (Option (Arr V))) :=
  match args with
  | none => .error .noArgs
  | some as =>
    match checkLengths infos.length as.length with
    | .error e => .error e
    | .ok () =>
      match mapE shardingOf as with
      | .error e => .error e
      | .ok ss =>
        if (as.any fun a => a.shape.isNone || a.dtype.isNone) && (infos.any fun i => (files i).isNone) then
          .error .metadata
        else
          match fillAll as ss (infos.map files) with
          | .error e => .error e
          | .ok ws =>
            runGroups words svc metas (fun i => infos.getD i ⟨"", ""⟩) (fun i => ws.getD i ⟨⟨0, []⟩, [], .raw .f32⟩)
              (groups (ws.map fun w => w.sharding.mesh)) (List.replicate infos.length none)

/-! ### Choice of the handler -/

/-- `CheckpointingImpl`. -/
inductive Impl
  | colocatedPython | persistence | noDispatcher
deriving DecidableEq, Repr

/-- The handler for arrays: whether it uses the service, a dispatcher, one replica, and array metadata. -/
structure Handler where
  service : Bool
  dispatcher : Bool
  singleReplica : Bool
  store : Bool
deriving DecidableEq, Repr

/-- `CheckpointingImpl.from_options`, `pathways_types.py:32-65`. -/
def fromOptions (colocated persistence : Bool) : Impl :=
  if colocated then .colocatedPython else if persistence then .persistence else .noDispatcher

/-- `get_pathways_array_handler`, `pathways_handler_registry.py:36-74,105-144`; `store` is the argument
`array_metadata_store`, if it is among the keyword arguments. -/
def getHandler (impl : Option Impl) (single : Bool) (store : Option Bool) (proxy enabled : Bool) :
    Except Err Handler :=
  let other (d : Bool) : Handler :=
    { service := false, dispatcher := d, singleReplica := single, store := store.getD true }
  match impl.getD (fromOptions true true) with
  | .colocatedPython => .ok (other true)
  | .noDispatcher => .ok (other false)
  | .persistence =>
    if proxy then
      if enabled then .ok { service := true, dispatcher := false, singleReplica := false, store := store.getD false }
      else .ok (other false)
    else .error .notImplemented

end Verif.Handlers.Pathways
