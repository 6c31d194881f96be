import Verif.Assoc

/-!
# Model of the serialization of step and root metadata

Models `/repo/checkpoint/orbax/checkpoint/_src/metadata/step_metadata_serialization.py`, `metadata_serialization_utils.py` and
`root_metadata_serialization.py`.  Exceptions are `none`.  `json` itself is not part of this file (see `Verif.Metadata.Store`).
-/

namespace Verif.Metadata

open Verif

/-- A dictionary key. -/
inductive K where
  | str (s : String)
  | other (n : Nat)
  deriving DecidableEq, Repr

/-- A Python value, as far as the validation looks at it. -/
inductive Val where
  | none
  | bool (b : Bool)
  | int (n : Int)
  | float (n : Int)
  | str (s : String)
  | list (l : List Val)
  | dict (d : List (K × Val))
  /-- A `StepStatistics`. -/
  | stats (d : List (String × Val))
  | object (n : Nat)

/-- Python's `not v`; a float `0.0` is `float 0`. -/
def Val.falsy : Val → Bool
  | .none => true
  | .bool b => !b
  | .int n => n = 0
  | .float n => n = 0
  | .str s => s = ""
  | .list l => l.isEmpty
  | .dict d => d.isEmpty
  | _ => false

def K.isStr : K → Bool
  | .str _ => true
  | .other _ => false

def Val.isFloat : Val → Bool
  | .float _ => true
  | _ => false

def strKeys (d : List (K × Val)) : Bool := d.all fun kv => kv.1.isStr

/-- `validate_and_process_item_handlers`, metadata_serialization_utils.py:45-64. -/
def processItemHandlers : Val → Option Val
  | .none => some .none
  | .dict d => if strKeys d then some (.dict d) else none
  | .str s => some (.str s)
  | _ => none

/-- `validate_and_process_metrics`, metadata_serialization_utils.py:82-101. -/
def processMetrics (metrics : Val) (additional : Val) : Option Val :=
  let metrics := if metrics.falsy then .dict [] else metrics
  match metrics with
  | .dict d => if !strKeys d then none else match additional with
    | .none => some (.dict d)
    | .dict a => if !strKeys a then none else some (.dict (a.foldl (fun d kv => Assoc.put d kv.1 kv.2) d))
    | _ => none
  | _ => none

/-- `validate_and_process_performance_metrics`, metadata_serialization_utils.py:104-123. -/
def processPerformance : Val → Option Val
  | .none => some (.dict [])
  | .dict d => if strKeys d then some (.dict (d.filter fun kv => kv.2.isFloat)) else none
  | .stats d => some (.dict ((d.filter fun kv => kv.2.isFloat).map fun kv => (.str kv.1, kv.2)))
  | _ => none

/-- `validate_and_process_init_timestamp_nsecs` and the one for the commit, metadata_serialization_utils.py:126-147. -/
def processTimestamp : Val → Option Val
  | .none => some .none
  | .int n => some (.int n)
  | .bool b => some (.bool b)
  | _ => none

/-- `validate_and_process_custom_metadata` and the one for internal metadata, metadata_serialization_utils.py:150-173. -/
def processCustom : Val → Option Val
  | .none => some (.dict [])
  | .dict d => if strKeys d then some (.dict d) else none
  | _ => none

/-- `InternalCheckpointMetadata`, step_metadata_serialization.py:36-83, and `StepMetadata` without `item_metadata`. -/
structure Meta where
  itemHandlers : Val := .none
  metrics : Val := .dict []
  performance : Val
  init : Val := .none
  commit : Val := .none
  custom : Val := .dict []

/-- The fields of `StepStatistics` and their defaults, logging/step_statistics.py:53-67. -/
def statFields : List (String × Val) :=
  [("step", .none), ("event_type", .str "save"), ("directory", .none), ("reached_preemption", .bool false), ("preemption_received_at", .none),
    ("synchronous", .bool false), ("wait_for_prev_start_time", .none), ("wait_for_prev_duration_secs", .none),
    ("time_between_consecutive_saves_sec", .none), ("checkpointer_blocking_start_time", .none), ("checkpointer_blocking_duration_secs", .none),
    ("get_old_steps_start_time", .none), ("get_old_steps_duration_secs", .none), ("checkpoint_manager_blocking_start_time", .none),
    ("checkpoint_manager_blocking_duration_secs", .none)]

/-- `StepStatistics(**d)`: an unknown name raises. -/
def mkStats (d : List (K × Val)) : Option Val :=
  if d.all (fun kv => statFields.any fun f => kv.1 = .str f.1) then
    some (.stats (statFields.map fun f => (f.1, (Assoc.get d (.str f.1)).getD f.2)))
  else none

/-- `InternalCheckpointMetadata.serialize`, step_metadata_serialization.py:85-90. -/
def Meta.serialize (m : Meta) : Option (List (K × Val)) := do
  let h ← processItemHandlers m.itemHandlers
  let me ← processMetrics m.metrics .none
  let p ← processPerformance m.performance
  let i ← processTimestamp m.init
  let c ← processTimestamp m.commit
  let u ← processCustom m.custom
  pure [(.str "item_handlers", h), (.str "metrics", me), (.str "performance_metrics", p), (.str "init_timestamp_nsecs", i),
    (.str "commit_timestamp_nsecs", c), (.str "custom_metadata", u)]

/-- The field names. -/
def fieldNames : List K := [.str "item_handlers", .str "metrics", .str "performance_metrics", .str "init_timestamp_nsecs",
  .str "commit_timestamp_nsecs", .str "custom_metadata"]

/-- The loop over the unknown keys with `process_unknown_key`, step_metadata_serialization.py:124-128 and
metadata_serialization_utils.py:176-187.  The dictionary that is filled *is* the one in `metadata_dict` if there is one there,
so that the second unknown key meets the first. -/
def addUnknown (aliased : Bool) : List (K × Val) → List (K × Val) → Option (List (K × Val))
  | c, [] => some c
  | c, (k, v) :: l => if aliased && !c.isEmpty then none else addUnknown aliased (Assoc.put c k v) l

/-- Is the processed `custom_metadata` the object found in the metadata? -/
def isAliased (v : Val) : Bool := match v with
  | .dict _ => true
  | _ => false

/-- `InternalCheckpointMetadata.deserialize`, step_metadata_serialization.py:92-129. -/
def Meta.deserialize (v : Val) : Option Meta := match v with
  | .dict d => do
    let field (name : String) : Val := (Assoc.get d (.str name)).getD .none
    let h ← processItemHandlers (field "item_handlers")
    let me ← processMetrics (field "metrics") .none
    let p ← processPerformance (field "performance_metrics")
    let i ← processTimestamp (field "init_timestamp_nsecs")
    let c ← processTimestamp (field "commit_timestamp_nsecs")
    let u ← processCustom (field "custom_metadata")
    match p, u with
    | .dict p, .dict u => do
      let p ← mkStats p
      let u ← addUnknown (isAliased (field "custom_metadata")) u (d.filter fun kv => kv.1 ∉ fieldNames)
      pure { itemHandlers := h, metrics := me, performance := p, init := i, commit := c, custom := .dict u }
    | _, _ => none
  | _ => none

/-- `deserialize` with additional metrics, step_metadata_serialization.py:131-151, 222-231. -/
def deserializeWith (v : Val) (metrics : Val) : Option Meta := do
  let m ← Meta.deserialize v
  let me ← processMetrics m.metrics metrics
  pure { m with metrics := me }

/-- The processor of a field. -/
def processor (k : K) : Option (Val → Option Val) :=
  if k = .str "item_handlers" then some processItemHandlers
  else if k = .str "metrics" then some fun v => processMetrics v .none
  else if k = .str "performance_metrics" then some processPerformance
  else if k = .str "init_timestamp_nsecs" then some processTimestamp
  else if k = .str "commit_timestamp_nsecs" then some processTimestamp
  else if k = .str "custom_metadata" then some processCustom
  else none

/-- The comprehension of `serialize_for_update`, step_metadata_serialization.py:213-217. -/
def processFields (kwargs : List (K × Val)) : List K → Option (List (K × Val))
  | [] => some []
  | n :: ns => match Assoc.get kwargs n with
    | none => processFields kwargs ns
    | some v => match processor n with
      | none => none
      | some f => match f v, processFields kwargs ns with
        | some w, some l => some ((n, w) :: l)
        | _, _ => none

/-- `serialize_for_update`, step_metadata_serialization.py:194-219. -/
def serializeForUpdate (kwargs : List (K × Val)) : Option (List (K × Val)) :=
  if kwargs.any fun kv => kv.1 ∉ fieldNames then none else processFields kwargs fieldNames

/-- `RootMetadata`, root_metadata_serialization.py:27-41. -/
structure Root where
  internal : Val
  custom : Val

/-- `InternalRootMetadata.serialize`, root_metadata_serialization.py:43-48. -/
def Root.serialize (r : Root) : Option (List (K × Val)) := do
  let i ← processCustom r.internal
  let c ← processCustom r.custom
  pure [(.str "internal_metadata", i), (.str "custom_metadata", c)]

/-- `InternalRootMetadata.deserialize`, root_metadata_serialization.py:50-76. -/
def Root.deserialize (v : Val) : Option Root := match v with
  | .dict d => do
    let field (name : String) : Val := (Assoc.get d (.str name)).getD .none
    let i ← processCustom (field "internal_metadata")
    let c ← processCustom (field "custom_metadata")
    match c with
    | .dict c => do
      let c ← addUnknown (isAliased (field "custom_metadata")) c (d.filter fun kv => kv.1 ≠ .str "internal_metadata" ∧ kv.1 ≠ .str "custom_metadata")
      pure { internal := i, custom := .dict c }
    | _ => none
  | _ => none

end Verif.Metadata
