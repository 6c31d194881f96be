/-!
Snapshots of the state in host memory, taken by a worker thread.

Modelled code: checkpoint/orbax/checkpoint/experimental/v1/_src/training/pathways/snapshotter.py:56-230. Any number of
threads may call `save` and `load` at any time; what they and the worker do between two accesses of the queue or of the
latest snapshot is one step. Simplified: a tree is the list of its leaves; an array has one value, held by each replica of
the mesh along the replica axis; random keys are arrays; transfers between host and devices keep values.
-/

namespace Verif.Snapshots

/-- A leaf of the user's state: an array, given by its value, or another object, given by where it is in memory. -/
inductive Leaf where
  | array (v : Nat)
  | other (obj : Nat)
deriving DecidableEq

/-- A leaf in host memory, with the replicas that hold it. -/
structure Pinned where
  leaf : Leaf
  replicas : List Nat
deriving DecidableEq

/-- `(pinned_state, step)`. -/
structure Snap where
  step : Nat
  leaves : List Pinned
deriving DecidableEq

inductive Worker where
  /-- waits for the queue -/
  | idle
  /-- waits for the transfers of a snapshot -/
  | busy (s : Snap)
  /-- has ended with an exception -/
  | dead
deriving DecidableEq

/-- The snapshotter, lines 59-66, with the calls in progress and the machine around it. -/
structure St where
  queue : List Snap
  /-- `unfinished_tasks` of the queue -/
  unfinished : Nat
  worker : Worker
  latest : Option Snap
  /-- calls of `save` that have found the queue not full and have not put their snapshot yet -/
  pending : List Snap
  /-- calls of `load` that have read the latest snapshot and have not returned -/
  loading : List Snap
  /-- replicas that are unavailable -/
  lost : List Nat
  /-- what the objects in memory hold -/
  heap : Nat → Nat

def start (heap : Nat → Nat) : St := ⟨[], 0, .idle, none, [], [], [], heap⟩

/-- `_pin_leaf`, lines 101-108: arrays are copied to all replicas; other leaves are kept as they are. -/
def pin (mesh : List Nat) : Leaf → Pinned
  | .array v => ⟨.array v, mesh⟩
  | .other o => ⟨.other o, []⟩

/-- `get_active_pytree` and `_device_put_pinned`, lines 149-184, for one leaf: the replicas that are left, on the new mesh.
`none` is "No active replicas found". -/
def revive (lost mesh : List Nat) (p : Pinned) : Option Pinned :=
  match p.leaf with
  | .array v => if p.replicas.filter (fun r => !lost.contains r) = [] then none else some ⟨.array v, mesh⟩
  | .other o => some ⟨.other o, p.replicas⟩

def reviveAll (lost mesh : List Nat) : List Pinned → Option (List Pinned)
  | [] => some []
  | p :: ps => (revive lost mesh p).bind fun q => (reviveAll lost mesh ps).map (q :: ·)

/-- What a leaf shows. -/
def show' (heap : Nat → Nat) : Leaf → Nat
  | .array v => v
  | .other o => heap o

/-- What happens. -/
inductive Ev where
  /-- a call of `save` has been skipped -/
  | skipped (step : Nat)
  /-- a call of `save` has found room -/
  | accepted (step : Nat) (state : List Leaf)
  /-- and has returned -/
  | put (step : Nat) (state : List Leaf)
  /-- the worker takes a snapshot -/
  | taken
  /-- the worker has finished it -/
  | kept (step : Nat) (state : List Leaf)
  /-- the worker has given it up after a runtime error -/
  | failed (step : Nat) (state : List Leaf)
  /-- the worker has ended with another exception -/
  | died (step : Nat) (state : List Leaf)
  /-- a call of `load` has read the latest snapshot -/
  | read (step : Nat)
  /-- `load` has raised: there is no snapshot -/
  | empty
  /-- `load` has raised: no replica is left -/
  | gone (step : Nat)
  /-- `load` has returned: what the leaves show; the snapshot is reset or not -/
  | loaded (step : Nat) (shown : List Nat) (reset : Bool)
  /-- `join` has returned -/
  | joined
  /-- a replica becomes unavailable -/
  | lose (r : Nat)
  /-- the user changes an object -/
  | change (obj v : Nat)
deriving DecidableEq

def Snap.state (s : Snap) : List Leaf := s.leaves.map (·.leaf)

/-- One step of the calls, the worker or the machine. -/
inductive Step (mesh : List Nat) : St → Ev → St → Prop where
  /-- lines 97-99 -/
  | skipped {s step} : s.queue.length ≥ 1 → Step mesh s (.skipped step) s
  /-- lines 97-110 -/
  | accepted {s step state} : ¬ s.queue.length ≥ 1 →
      Step mesh s (.accepted step state) { s with pending := ⟨step, state.map (pin mesh)⟩ :: s.pending }
  /-- line 112: waits while the queue is full -/
  | put {s n} : n ∈ s.pending → s.queue.length < 1 →
      Step mesh s (.put n.step n.state)
        { s with pending := s.pending.erase n, queue := s.queue ++ [n], unfinished := s.unfinished + 1 }
  /-- line 71 -/
  | taken {s n q} : s.worker = .idle → s.queue = n :: q → Step mesh s .taken { s with worker := .busy n, queue := q }
  /-- lines 72-74 and 77-81 -/
  | kept {s n} : s.worker = .busy n →
      Step mesh s (.kept n.step n.state) { s with worker := .idle, latest := some n, unfinished := s.unfinished - 1 }
  /-- lines 75-76 and 80-81 -/
  | failed {s n} : s.worker = .busy n →
      Step mesh s (.failed n.step n.state) { s with worker := .idle, unfinished := s.unfinished - 1 }
  /-- lines 80-81: another exception is not caught -/
  | died {s n} : s.worker = .busy n →
      Step mesh s (.died n.step n.state) { s with worker := .dead, unfinished := s.unfinished - 1 }
  /-- lines 136-139 -/
  | read {s n} : s.latest = some n → Step mesh s (.read n.step) { s with loading := n :: s.loading }
  /-- lines 137-138 -/
  | empty {s} : s.latest = none → Step mesh s .empty s
  /-- lines 161-164 -/
  | gone {s n} : n ∈ s.loading → reviveAll s.lost mesh n.leaves = none →
      Step mesh s (.gone n.step) { s with loading := s.loading.erase n }
  /-- lines 141-213 -/
  | loaded {s n ps} (reset : Bool) : n ∈ s.loading → reviveAll s.lost mesh n.leaves = some ps →
      Step mesh s (.loaded n.step (ps.map fun p => show' s.heap p.leaf) reset)
        { s with loading := s.loading.erase n, latest := if reset then some ⟨n.step, ps⟩ else s.latest }
  /-- lines 215-217 -/
  | joined {s} : s.unfinished = 0 → Step mesh s .joined s
  | lose {s r} : Step mesh s (.lose r) { s with lost := r :: s.lost }
  | change {s o v} : Step mesh s (.change o v) { s with heap := fun x => if x = o then v else s.heap x }

/-- Runs, with the events in order. -/
inductive Run (mesh : List Nat) (heap : Nat → Nat) : List Ev → St → Prop where
  | nil : Run mesh heap [] (start heap)
  | snoc {evs s e s'} : Run mesh heap evs s → Step mesh s e s' → Run mesh heap (evs ++ [e]) s'

end Verif.Snapshots
