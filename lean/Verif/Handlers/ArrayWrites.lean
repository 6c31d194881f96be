import Verif.Memory.Batches

/-!
# Model of saving arrays: priorities, transfers, writes and callbacks

Models `ArrayHandler.serialize` and what it starts in the background,
`/repo/checkpoint/orbax/checkpoint/_src/serialization/jax_array_handlers.py:446-865,1417-1530`, for one
process.  The contents of arrays live in device cells which the caller may change whenever it likes once
`serialize` has returned (JAX arrays do not change, but their buffers may be donated).  The background
work is a transition system: its steps interleave with the changes of the caller, and with a dispatcher the
steps of the worker interleave with those of the controller.

Simplifications: the callbacks of a batch are called in one step, and do not raise; how an array is cut into
slices and encoded is the subject of other models; the sharding file is left out; infos, arguments and values
have the same length (`check_input_arguments`); all infos share the limits of the first, as in the code.
-/

namespace Verif.Handlers.ArrayWrites

open Verif

/-- What `callback.key_priority` returns, `serialization/types.py:43-64`.  `other`: anything that is not a
`TransferPriority`, for example the `None` of the method that `SerializationStatusCallback` itself
defines, `types.py:111-120`. -/
inductive Priority
  | synchronous | asyncPrioritized | asyncDeprioritized | unknown | other
deriving DecidableEq, Repr

/-- One array to save with its `ParamInfo` and `SaveArgs`: its name, the cell with its contents, its shards,
the implementation if it is a random key, the save arguments, its number of elements and whether it is
fully addressable. -/
structure Param where
  name : String
  cell : Nat
  arr : Memory.Batches.Arr
  impl : Option String
  arg : Nat
  size : Nat
  hostLocal : Bool
deriving DecidableEq, Repr

/-- The options of the handler, of the device-to-host limit and of the environment.  `transaction`:
`use_transaction`, `jax_array_handlers.py:791-798`. -/
structure Cfg where
  processes : Nat
  dispatcher : Bool
  maxBytes : Option Int
  priority : String → Priority
  devices : List Nat
  worker : Nat → Nat
  replicaId : Option Nat
  replicaParallel : Bool
  transaction : Bool

inductive Err
  | zeroSize (name : String)
  | hostLocal (name : String)
  | unknownPriority (name : String)
deriving DecidableEq, Repr

/-- The arguments of `next_memory_budgeted_batch` on the two paths, `jax_array_handlers.py:582-586,766-769`. -/
def Cfg.memory (c : Cfg) : Memory.Batches.Cfg where
  devices := c.devices
  worker := c.worker
  replicaId := if c.dispatcher then c.replicaId else if c.replicaParallel then none else c.replicaId
  dispatcher := c.dispatcher

/-- `check_array_values`, `jax_array_handlers.py:65-84`, with `raise_error=not self.has_dispatcher()`. -/
def checkSizes (c : Cfg) : List Param → Except Err Unit
  | [] => .ok ()
  | p :: l => if p.size = 0 ∧ c.dispatcher = false then .error (.zeroSize p.name) else checkSizes c l

/-- The loop of `serialize`, `jax_array_handlers.py:1431-1481`: host local arrays are refused when there are
several processes, and the implementations of random keys are recorded by name. -/
def gather (c : Cfg) : List Param → List (String × String) → Except Err (List (String × String))
  | [], ext => .ok ext
  | p :: l, ext =>
    if c.processes > 1 ∧ p.hostLocal = true then .error (.hostLocal p.name)
    else
      match p.impl with
      | some i => gather c l (Assoc.put ext p.name i)
      | none => gather c l ext

/-- The three lists of `_serialize_arrays`, `jax_array_handlers.py:642-661`. -/
structure Split where
  sync : List Param
  asyncPrio : List Param
  asyncDeprio : List Param

/-- `jax_array_handlers.py:642-661`; a value that is no `TransferPriority` falls through all branches. -/
def split (c : Cfg) : List Param → Split → Except Err Split
  | [], s => .ok s
  | p :: l, s =>
    match c.maxBytes with
    | none => split c l { s with sync := s.sync ++ [p] }
    | some _ =>
      match c.priority p.name with
      | .synchronous => split c l { s with sync := s.sync ++ [p] }
      | .asyncPrioritized => split c l { s with asyncPrio := s.asyncPrio ++ [p] }
      | .asyncDeprioritized => split c l { s with asyncDeprio := s.asyncDeprio ++ [p] }
      | .unknown => .error (.unknownPriority p.name)
      | .other => split c l s

/-- `_get_deprioritized_batches_to_serialize`, `jax_array_handlers.py:446-485`, which is not called without
a limit (`assert`, `:574,760`). -/
def lateBatches (c : Cfg) (late : List Param) : List (List Param) :=
  match c.maxBytes with
  | none => []
  | some n =>
    match Memory.Batches.batches c.memory n (late.map fun p => (p.arr, p)) with
    | none => []
    | some bs => bs.map fun b => b.map Prod.snd

/-- What can be observed of an array: its transfer to the host is enqueued, it has arrived, `on_transfer_end`
is called, it is written, `on_write_end` is called. -/
inductive Kind
  | enqueued | arrived | transferEnd | written | writeEnd
deriving DecidableEq, Repr

/-- What storage has of an array: its name, contents, save arguments and the implementation of a random key. -/
structure Entry (V : Type) where
  name : String
  value : V
  arg : Nat
  ext : Option String

/-- How far a batch is: being transferred, on the host, written, or failed while being written. -/
inductive Work
  | moving | arrived | wrote | broken
deriving DecidableEq, Repr

/-- Where the background coroutine is: between batches; at work on a batch (the values taken, whether it is
the batch transferred by `serialize` itself, whether `on_transfer_end` has been called, and how far the
batch is); or it has raised. -/
inductive Pc (V : Type)
  | head
  | run (vs : List (Param × V)) (first told : Bool) (w : Work)
  | failed

structure State (V : Type) where
  device : Nat → V
  todo : List (List Param)
  pc : Pc V
  disk : List (Entry V)
  metas : List (String × Option String)
  log : List (Kind × Param)
  ext : List (String × String)

variable {V : Type}

/-- Device contents taken for a batch, `replica_slices.transfer_arrays_to_host` and
`dispatcher.device_to_host`. -/
def capture (d : Nat → V) (b : List Param) : List (Param × V) := b.map fun p => (p, d p.cell)

def note (k : Kind) (b : List Param) : List (Kind × Param) := b.map fun p => (k, p)

/-- One array as `_async_serialize_replica_slices` writes it, `jax_array_handlers.py:800-845`. -/
def entry (ext : List (String × String)) (v : Param × V) : Entry V :=
  { name := v.1.name, value := v.2, arg := v.1.arg, ext := Assoc.get ext v.1.name }

/-- The array metadata written with a batch, `jax_array_handlers.py:846-854`. -/
def metaOf (ext : List (String × String)) (p : Param) : String × Option String :=
  (p.name, Assoc.get ext p.name)

/-- What `serialize` does before it returns, `jax_array_handlers.py:1424-1530,626-735`: checks, priorities
and the transfer of the prioritized arrays.  Without a dispatcher the transfer blocks and the callbacks are
called, `:536-549`; with one it is only enqueued, `:719-735`. -/
def start (c : Cfg) (params : List Param) (d : Nat → V) : Except Err (State V) :=
  match checkSizes c params with
  | .error e => .error e
  | .ok _ =>
    match gather c params [] with
    | .error e => .error e
    | .ok ext =>
      match split c params { sync := [], asyncPrio := [], asyncDeprio := [] } with
      | .error e => .error e
      | .ok sp =>
        let todo := lateBatches c (sp.asyncPrio ++ sp.asyncDeprio)
        if sp.sync = [] then
          .ok { device := d, todo := todo, pc := .head, disk := [], metas := [], log := [], ext := ext }
        else if c.dispatcher then
          .ok { device := d, todo := todo, pc := .run (capture d sp.sync) true false .moving, disk := [],
                metas := [], log := note .enqueued sp.sync, ext := ext }
        else
          .ok { device := d, todo := todo, pc := .run (capture d sp.sync) true true .arrived, disk := [],
                metas := [], log := note .enqueued sp.sync ++ note .arrived sp.sync ++
                  note .transferEnd sp.sync, ext := ext }

/-- One step of the background work, `_serialize_without_dispatcher` (`jax_array_handlers.py:552-604`) or
`_serialize` with `_serialize_batch` (`:680-717,743-772`). -/
inductive Step (c : Cfg) : State V → State V → Prop
  /-- The next batch: without a dispatcher the transfer blocks (`:588`), with one the worker gets to work
  (`:686`). -/
  | next {s : State V} {b rest} (hpc : s.pc = .head) (htodo : s.todo = b :: rest) :
    Step c s { s with
      todo := rest
      pc := .run (capture s.device b) false false (if c.dispatcher then .moving else .arrived)
      log := s.log ++ note .enqueued b ++ (if c.dispatcher then [] else note .arrived b) }
  /-- The transfer of a batch ends. -/
  | arrive {s : State V} {vs f t} (hpc : s.pc = .run vs f t .moving) :
    Step c s { s with
      pc := .run vs f t .arrived
      log := s.log ++ note .arrived (vs.map Prod.fst) }
  /-- `on_transfer_end` (`:589,713`), for the batch transferred by `serialize` itself after waiting for
  the transfer (`:703-704`). -/
  | tell {s : State V} {vs f w} (hpc : s.pc = .run vs f false w) (hw : f = true → w ≠ .moving) :
    Step c s { s with
      pc := .run vs f true w
      log := s.log ++ note .transferEnd (vs.map Prod.fst) }
  /-- `_async_serialize_replica_slices` succeeds, `:775-885`; without a dispatcher it is called after
  `on_transfer_end`. -/
  | write {s : State V} {vs f t} (hpc : s.pc = .run vs f t .arrived) (ht : c.dispatcher = false → t = true) :
    Step c s { s with
      pc := .run vs f t .wrote
      disk := s.disk ++ vs.map (entry s.ext)
      metas := s.metas ++ (vs.map Prod.fst).map (metaOf s.ext)
      log := s.log ++ note .written (vs.map Prod.fst) }
  /-- It fails after having written some of the arrays, none with a transaction, and perhaps the array
  metadata (`asyncio.gather`, `:856-885`). -/
  | writeFail {s : State V} {vs f t} (keep : Param → Bool) (withMeta : Bool)
    (hpc : s.pc = .run vs f t .arrived) (ht : c.dispatcher = false → t = true)
    (hk : c.transaction = true → ∀ p, keep p = false) :
    Step c s { s with
      pc := .run vs f t .broken
      disk := s.disk ++ (vs.filter fun v => keep v.1).map (entry s.ext)
      metas := s.metas ++ (if withMeta then (vs.map Prod.fst).map (metaOf s.ext) else [])
      log := s.log ++ note .written ((vs.map Prod.fst).filter keep) }
  /-- `on_write_end` (`:569,596,717`). -/
  | finish {s : State V} {vs f} (hpc : s.pc = .run vs f true .wrote) :
    Step c s { s with
      pc := .head
      log := s.log ++ note .writeEnd (vs.map Prod.fst) }
  /-- The error of a batch is raised and the coroutine ends. -/
  | raise {s : State V} {vs f} (hpc : s.pc = .run vs f true .broken) :
    Step c s { s with pc := .failed }

/-- Everything that can happen after `serialize` has returned in state `s0`, with a caller that changes the
device contents to `d` in state `s` only if `ok s d`. -/
inductive Reach (c : Cfg) (ok : State V → (Nat → V) → Prop) (s0 : State V) : State V → Prop
  | refl : Reach c ok s0 s0
  | step {s s'} (h : Reach c ok s0 s) (hs : Step c s s') : Reach c ok s0 s'
  | caller {s d} (h : Reach c ok s0 s) (hd : ok s d) : Reach c ok s0 { s with device := d }

/-- The future's result is available without error. -/
def Done (s : State V) : Prop := s.pc = .head ∧ s.todo = []

end Verif.Handlers.ArrayWrites
