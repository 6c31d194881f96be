/-!
# Node ranks and peers for the replicator service

Models how multi-tier checkpointing tells the replicator service who is who:
`experimental/emergency/multi_tier_checkpointing/initialization.py` (the ranks written to `replicator.yaml`),
`pathways_topology.py` (workers seen by a Pathways controller) and `_src/multihost/pathways.py` (which worker a device
belongs to).

Simplifications: numbers are natural numbers; the numbers parsed from the text form of a device are given as fields;
files, waiting and the call on the workers are not modelled here. Sorting is insertion sort.
-/

namespace Verif.Emergency.Ranks

inductive Err where
  | valueError
  | keyError
deriving DecidableEq, Repr

/-! ## Sorting -/

def insertBy {α : Type} (le : α → α → Bool) (x : α) : List α → List α
  | [] => [x]
  | y :: l => if le x y then x :: y :: l else y :: insertBy le x l

def sortBy {α : Type} (le : α → α → Bool) : List α → List α
  | [] => []
  | x :: l => insertBy le x (sortBy le l)

/-! ## Standard path -/

/-- `_validate_replicator_ranks`, initialization.py:140-162. -/
def validRanks (numNodes rank : Nat) (peers : List Nat) : Bool :=
  decide (0 < numNodes) && decide (rank < numNodes) && peers.all (· < numNodes) && !peers.contains rank &&
    decide peers.Nodup

/-- `_validate_node_rank_by_process_index`, initialization.py:165-188. -/
def validMapping (ranks : List Nat) (numNodes : Nat) : Bool :=
  decide (ranks.length = numNodes) && ranks.all (· < numNodes) && decide ranks.Nodup

/-- The loop that collects the peers, initialization.py:583-590. An index out of range would raise; there is none (`C105_standard`). -/
def collectPeers (ranks : List Nat) (perSlice me : Nat) (numSlices : Nat) : List Nat :=
  (List.range numSlices).filterMap fun i =>
    let j := i * perSlice + me % perSlice
    if j ≠ me then ranks[j]? else none

/-- What a process writes to `replicator.yaml` as its rank and its peers, initialization.py:546-601, with `_create_replicator_file`, 191-205. -/
def standard (numNodes numSlices : Nat) (ranks : List Nat) (me : Nat) : Except Err (Nat × List Nat) :=
  if numNodes % numSlices ≠ 0 then .error .valueError
  else if ¬ me < numNodes then .error .valueError
  else if ¬ validMapping ranks numNodes then .error .valueError
  else
    let rank := ranks.getD me 0
    let peers := collectPeers ranks (numNodes / numSlices) me numSlices
    if validRanks numNodes rank peers then .ok (rank, peers) else .error .valueError

/-! ## Pathways -/

/-- A device as the controller sees it: attributes, and numbers found in its text form. -/
structure Device where
  id : Nat
  virtualTask : Option Nat
  logicalTask : Option Nat
  taskId : Option Nat
  vtask : Option Nat
  slice : Option Nat
deriving DecidableEq, Repr

/-- `(task,)` or `(task, slice)`. -/
inductive Key where
  | task (t : Nat)
  | taskSlice (t s : Nat)
deriving DecidableEq, Repr

/-- `_get_device_task_index`, pathways.py:48-59. -/
def taskIndex (d : Device) : Option Nat :=
  match d.virtualTask with
  | some t => some t
  | none =>
    match d.logicalTask with
    | some t => some t
    | none =>
      match d.taskId with
      | some t => some t
      | none => d.vtask

/-- `_get_device_worker_key`, pathways.py:68-91. -/
def workerKey (d : Device) : Except Err Key :=
  match taskIndex d, d.slice with
  | some t, some s => .ok (.taskSlice t s)
  | some t, none => .ok (.task t)
  | none, _ => .error .valueError

def addDevice : List (Key × List Nat) → Key → Nat → List (Key × List Nat)
  | [], k, i => [(k, [i])]
  | (k', l) :: r, k, i => if k' = k then (k', l ++ [i]) :: r else (k', l) :: addDevice r k i

/-- The keys of the devices, or the first failure. -/
def keyed : List Device → Except Err (List (Key × Nat))
  | [] => .ok []
  | d :: ds =>
    match workerKey d with
    | .error e => .error e
    | .ok k =>
      match keyed ds with
      | .error e => .error e
      | .ok l => .ok ((k, d.id) :: l)

/-- `group_devices_by_worker`, pathways.py:94-120. -/
def group (ds : List (Key × Nat)) : List (Key × List Nat) :=
  ds.foldl (fun g d => addDevice g d.1 d.2) []

/-- `worker_key_sort_key`, pathways_topology.py:32-44. -/
def sortKey : Key → List Nat
  | .task t => [t]
  | .taskSlice t s => [s, t]

structure Worker where
  rank : Nat
  key : Key
  deviceIds : List Nat
  representative : Nat
deriving DecidableEq, Repr

/-- `Topology.from_devices`, pathways_topology.py:112-144. -/
def fromDevices (ds : List Device) : Except Err (List Worker) :=
  match keyed ds with
  | .error e => .error e
  | .ok l =>
    .ok (((sortBy (fun a b => decide (sortKey a.1 ≤ sortKey b.1)) (group l)).zipIdx).map fun x =>
      ⟨x.2, x.1.1, sortBy (fun a b => decide (a ≤ b)) x.1.2, x.1.2.headD 0⟩)

def Key.slice? : Key → Option Nat
  | .task _ => none
  | .taskSlice _ s => some s

def Key.task? : Key → Nat
  | .task t => t
  | .taskSlice t _ => t

def dedup : List Nat → List Nat
  | [] => []
  | x :: l => if (dedup l).contains x then dedup l else x :: dedup l

/-- `sorted({key[1] for key in worker_keys})`. -/
def slicesOf (ws : List Worker) : List Nat :=
  sortBy (fun a b => decide (a ≤ b)) (dedup (ws.filterMap fun w => w.key.slice?))

def tasksOf (ws : List Worker) (s : Nat) : List Nat :=
  (ws.filter fun w => w.key.slice? == some s).map fun w => w.key.task?

def sameSet (a b : List Nat) : Bool := a.all (b.contains ·) && b.all (a.contains ·)

/-- `validate_num_slices`, pathways_topology.py:190-229. -/
def validate (ws : List Worker) (n : Nat) : Except Err Unit :=
  if n = 0 then .error .valueError
  else if ws = [] then .error .valueError
  else if ws.length % n ≠ 0 then .error .valueError
  else if n = 1 then .ok ()
  else if ws.any fun w => w.key.slice?.isNone then .error .valueError
  else if (slicesOf ws).length ≠ n then .error .valueError
  else if (slicesOf ws).all fun s => sameSet (tasksOf ws s) (tasksOf ws ((slicesOf ws).headD 0)) then .ok ()
  else .error .valueError

def rankOf (ws : List Worker) (k : Key) : Except Err Nat :=
  match ws.find? fun w => w.key == k with
  | some w => .ok w.rank
  | none => .error .keyError

def ranksOf (ws : List Worker) (t : Nat) : List Nat → Except Err (List Nat)
  | [] => .ok []
  | s :: l =>
    match rankOf ws (.taskSlice t s) with
    | .error e => .error e
    | .ok r =>
      match ranksOf ws t l with
      | .error e => .error e
      | .ok rs => .ok (r :: rs)

def peersOf (ws : List Worker) (slices : List Nat) : List Worker → Except Err (List (List Nat))
  | [] => .ok []
  | w :: l =>
    match ranksOf ws w.key.task? (slices.filter fun s => w.key.slice? != some s) with
    | .error e => .error e
    | .ok rs =>
      match peersOf ws slices l with
      | .error e => .error e
      | .ok ps => .ok (rs :: ps)

/-- `peer_ranks_by_worker_rank`, pathways_topology.py:231-245, with `_peer_ranks_by_worker_key`, 256-272. -/
def peers (ws : List Worker) (n : Nat) : Except Err (List (List Nat)) :=
  match validate ws n with
  | .error e => .error e
  | .ok () => if n = 1 then .ok (ws.map fun _ => []) else peersOf ws (slicesOf ws) ws

/-- `dict(zip(source, target))[x]`: the last pair counts. -/
def lookupLast : List (Nat × Nat) → Nat → Option Nat
  | [], _ => none
  | (s, t) :: l, x =>
    match lookupLast l x with
    | some y => some y
    | none => if s = x then some t else none

/-- `remap_nested_device_ids`, pathways_topology.py:47-80. -/
def remap (nested : List (List Nat)) (source target : List Nat) : Except Err (List (List Nat)) :=
  if source.length ≠ target.length then .error .valueError
  else if nested.all fun l => l.all fun x => (lookupLast (source.zip target) x).isSome then
    .ok (nested.map fun l => l.map fun x => (lookupLast (source.zip target) x).getD 0)
  else .error .valueError

end Verif.Emergency.Ranks
