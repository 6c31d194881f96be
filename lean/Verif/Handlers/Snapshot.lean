/-!
# What an asynchronous save reads, and when

A save that runs in the background returns to the program before everything is written, and the program goes
on to change its objects. Models which handlers copy before they return and which read the object later:
`_src/serialization/type_handlers.py` (`NumpyHandler`, `ScalarHandler`, `StringHandler`),
`_src/serialization/jax_array_handlers.py`, `_src/handlers/json_checkpoint_handler.py`,
`_src/handlers/proto_checkpoint_handler.py`, the handlers of v1 with the same structure, and the metadata
given by the user. Contents are lists of numbers.
-/
namespace Verif.Handlers.Snapshot

/-- An object of the program. Arrays of JAX, scalars and texts are not mutable; an array may be deleted
(donated). -/
structure Cell where
  data : List Nat
  mutable : Bool
  alive : Bool := true
deriving DecidableEq, Repr

abbrev Heap := Nat → Cell

/-- What is saved: an array (prioritized or not), a numpy array, a scalar or text, a document saved as JSON
(items, metrics, custom metadata), a protocol buffer. -/
inductive Kind
  | array (prioritized : Bool)
  | numpy
  | value
  | json
  | proto
deriving DecidableEq, Repr

structure Item where
  kind : Kind
  obj : Nat
deriving DecidableEq, Repr

/-- The work left in the background for one item: contents to be written, an object still to be read, a
message being printed, the contents written, or an error. -/
inductive Task
  | have (d : List Nat)
  | array (o : Nat)
  | json (o : Nat)
  | proto (o : Nat) (got : List Nat)
  | done (d : List Nat)
  | failed
deriving DecidableEq, Repr

/-- What the call of `save` does before it returns; an array that is deleted raises.
`jax_array_handlers.py:525-547` (transfer to host of prioritized arrays, others later),
`type_handlers.py:167` (`copy.deepcopy`), `type_handlers.py:243` (`np.asarray` of scalars, then copied),
`type_handlers.py:347-362` (texts), `json_checkpoint_handler.py:57-87`, `proto_checkpoint_handler.py:58-87`,
`v1/_src/handlers/json_handler.py:95-117`, `v1/_src/handlers/proto_handler.py:88-112` (only a coroutine is
made), `async_checkpointer.py:438-455` (custom metadata). -/
def start (h : Heap) (it : Item) : Option Task :=
  match it.kind with
  | .array true => if (h it.obj).alive then some (.have (h it.obj).data) else none
  | .array false => some (.array it.obj)
  | .numpy => some (.have (h it.obj).data)
  | .value => some (.have (h it.obj).data)
  | .json => some (.json it.obj)
  | .proto => some (.proto it.obj [])

/-- One step of the background: arrays that were not prioritized are transferred
(`jax_array_handlers.py:566-590`), a document is printed at once (`json.dumps` runs without interruption), a
message field by field (`text_format.MessageToString` is Python code), and contents are written. -/
def step (h : Heap) : Task → Task
  | .have d => .done d
  | .array o => if (h o).alive then .have (h o).data else .failed
  | .json o => .have (h o).data
  | .proto o got =>
    match (h o).data[got.length]? with
    | some v => .proto o (got ++ [v])
    | none => .have got
  | .done d => .done d
  | .failed => .failed

/-- What the program does meanwhile. -/
inductive Act
  | set (o i v : Nat)
  | push (o v : Nat)
  | delete (o : Nat)
deriving DecidableEq, Repr

/-- Only mutable objects are changed, only arrays (not mutable) are deleted. -/
def act (h : Heap) : Act → Heap
  | .set o i v => fun x => if x = o ∧ (h x).mutable then { h x with data := (h x).data.set i v } else h x
  | .push o v => fun x => if x = o ∧ (h x).mutable then { h x with data := (h x).data ++ [v] } else h x
  | .delete o => fun x => if x = o ∧ ¬ (h x).mutable then { h x with alive := false } else h x

/-- One thing that happens: an act of the program, or a step in the background (for this item). -/
inductive Event
  | user (a : Act)
  | background
deriving DecidableEq, Repr

/-- A history. Tasks of different items share only the heap, which they do not change: it is enough to follow
one item. -/
def run : List Event → Heap × Task → Heap × Task
  | [], s => s
  | .user a :: es, (h, t) => run es (act h a, t)
  | .background :: es, (h, t) => run es (h, step h t)

/-! ## Metrics in the memory of a manager -/

/-- `CheckpointInfo(step, time, metrics)`, `checkpoint_manager.py:1857-1862`: the object itself is kept. -/
structure Info where
  step : Nat
  obj : Nat

/-- What happens to a manager that tracks the best checkpoint. -/
inductive MEvent
  | user (a : Act)
  | save (step obj : Nat)

def mrun : List MEvent → Heap × List Info → Heap × List Info
  | [], s => s
  | .user a :: es, (h, is) => mrun es (act h a, is)
  | .save n o :: es, (h, is) => mrun es (h, is ++ [⟨n, o⟩])

/-- The metrics of the tracked checkpoints, by which they are sorted, `checkpoint_manager.py:1978-1998`. -/
def tracked (s : Heap × List Info) : List (Nat × List Nat) := s.2.map (fun i => (i.step, (s.1 i.obj).data))

end Verif.Handlers.Snapshot
