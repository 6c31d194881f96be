import Verif.Emergency.Peers

/-!
# The peer-to-peer checkpoint manager: restoring

Models `experimental/emergency/p2p/checkpoint_manager.py` and `experimental/emergency/p2p/local.py`
under `checkpoint/orbax/checkpoint`: the background fetch, and `restore` on all hosts together.

A host is the process with the number of its position in the list.  What is restored is abstracted to
the step and the process that stored the shard.
-/
namespace Verif.Emergency.Manager
open Verif.Assoc Verif.Emergency.Peers

/-- A host: its disk, the step prefetched in the background and whether that succeeded
(`checkpoint_manager.py:65-67`; a timeout of the wait, `:194-197`, counts as failure), and the content of
the directory `p2p_restore`: for each step the process whose shard is there. -/
structure Host where
  disk : Disk
  bkgStep : Option Nat := none
  bkgOk : Bool := false
  restoreDir : List (Nat × Nat) := []
deriving DecidableEq, Repr

/-- The hosts, the announcements of the last registry synchronisation, and the steps in persistent
storage, if a directory was given for it. -/
structure Sys where
  mesh : Mesh
  infos : List Info
  hosts : List Host
  persistent : Option (List Nat)

/-- Local `all_steps`, `local.py:232-236`: nothing unless the latest step is the process's own. -/
def localSteps (p : Nat) (disk : Disk) : List Nat :=
  match disk.getLast? with
  | some (_, some q) => if p = q then disk.map Prod.fst else []
  | _ => []

/-- The source of the shard of process `p`, `checkpoint_manager.py:150-153`, `:180-186`. -/
def source (s : Sys) (step p : Nat) : Option Info :=
  sourcePeer (topology s.mesh) (registry s.mesh s.infos) step p

/-- `_fetch_from_peers`, `checkpoint_manager.py:150-168`, with the peer's answer,
`service.py:184-234`: the owner of the shard that arrives.  `net p step` tells whether the transfer
succeeds (see `Wire.lean` for the transfer itself). -/
def fetchFromPeers (s : Sys) (net : Nat → Nat → Bool) (step p : Nat) : Option Nat :=
  match source s step p with
  | none => none
  | some peer =>
    match s.hosts[peer.host]?, peer.proc with
    | some h, some q =>
      if (step, some q) ∈ h.disk ∧ net p step = true then some q else none
    | _, _ => none

/-- `_start_background_fetch` and `_run_background_fetch`, `checkpoint_manager.py:127-148`, on one host,
run to its end. -/
def prefetch (s : Sys) (net : Nat → Nat → Bool) (p : Nat) (h : Host) : Host :=
  match latestComplete (topology s.mesh) (registry s.mesh s.infos) with
  | none => h
  | some step =>
    if step ∈ localSteps p h.disk then h
    else match fetchFromPeers s net step p with
      | none => { h with bkgStep := some step, bkgOk := false }
      | some q => { h with bkgStep := some step, bkgOk := true, restoreDir := put h.restoreDir step q }

/-- `fetch`, `checkpoint_manager.py:188-200`: was it successful, and the directory afterwards
(`service.py:341-350` replaces the directory of this step only). -/
def fetch (s : Sys) (net : Nat → Nat → Bool) (p : Nat) (h : Host) (step : Nat) : Bool × List (Nat × Nat) :=
  if h.bkgStep = some step then (h.bkgOk, h.restoreDir)
  else match fetchFromPeers s net step p with
    | none => (false, h.restoreDir)
    | some q => (true, put h.restoreDir step q)

/-- `LocalCheckpointManager.restore` from its own directory, `local.py:259-284`: the owner of the step is
checked.  `ok` tells whether reading succeeds. -/
def restoreLocal (p : Nat) (disk : Disk) (ok : Bool) (step : Nat) : Option Nat :=
  if (step, some p) ∈ disk ∧ ok = true then some p else none

/-- `_restore_from_local_or_p2p`, `checkpoint_manager.py:377-407`, and the test before it, `:442-455`:
the owner of the shard restored (`none`: not available, or an exception that is caught), and the host
afterwards.  The restore directory is removed whatever happens (`:397-407`). -/
def restoreHost (s : Sys) (net : Nat → Nat → Bool) (ok : Nat → Bool) (p : Nat) (h : Host) (step : Nat) :
    Option Nat × Host :=
  if (source s step p).isNone then (none, h)
  else if step ∈ localSteps p h.disk then (restoreLocal p h.disk (ok p) step, h)
  else
    let r := fetch s net p h step
    (if r.1 = true ∧ ok p = true then Assoc.get r.2 step else none, { h with restoreDir := [] })

/-- What a call of `restore` does on a host. -/
inductive Outcome
  | shard (step owner : Nat)
  | persistent (step : Nat)
  | error
deriving DecidableEq, Repr

/-- The choice of the step, `checkpoint_manager.py:421-435`: the step, and `use_persistent`. -/
def target (s : Sys) (step : Option Nat) : Option (Nat × Bool) :=
  match step with
  | some t => some (t, false)
  | none =>
    match latestComplete (topology s.mesh) (registry s.mesh s.infos) with
    | some t => some (t, false)
    | none => (s.persistent.bind List.max?).map fun t => (t, true)

/-- The result on every host, `checkpoint_manager.py:457-479`, from the results of the local attempts:
with persistent storage the failures are exchanged. -/
def conclude (persistent : Option (List Nat)) (step : Nat) (got : List (Option Nat)) : List Outcome :=
  match persistent with
  | some steps =>
    if got.any Option.isNone then
      got.map fun _ => if steps.contains step then .persistent step else .error
    else got.map fun g => match g with
      | some q => .shard step q
      | none => .error
  | none => got.map fun g => match g with
      | some q => .shard step q
      | none => .error

/-- `restore` on all hosts, `checkpoint_manager.py:410-479`. -/
def restore (s : Sys) (net : Nat → Nat → Bool) (ok : Nat → Bool) (step : Option Nat) :
    List Outcome × Sys :=
  match target s step with
  | none => (s.hosts.map fun _ => .error, s)
  | some (t, true) => (conclude s.persistent t (s.hosts.map fun _ => none), s)
  | some (t, false) =>
    let rs := s.hosts.zipIdx.map fun e => restoreHost s net ok e.2 e.1 t
    (conclude s.persistent t (rs.map Prod.fst), { s with hosts := rs.map Prod.snd })

/-- What can happen between and at restores.  `disks`: saves and deletions have given the hosts other
disks and persistent storage other steps; the registry is synchronised with new announcements only when
the next operation needs it, so the two are separate. -/
inductive Event
  | prefetch (net : Nat → Nat → Bool)
  | disks (new : List Disk) (persistent : Option (List Nat))
  | sync (infos : List Info)
  | restore (net : Nat → Nat → Bool) (ok : Nat → Bool) (step : Option Nat)

/-- One event; `prefetch` is the creation of the managers, `checkpoint_manager.py:69-70`. -/
def apply (s : Sys) : Event → Sys
  | .prefetch net => { s with hosts := s.hosts.zipIdx.map fun e => prefetch s net e.2 e.1 }
  | .disks new pers =>
    { s with hosts := (s.hosts.zip new).map (fun e => { e.1 with disk := e.2 }), persistent := pers }
  | .sync infos => { s with infos := infos }
  | .restore net ok step => (restore s net ok step).2

def run (s : Sys) (es : List Event) : Sys := es.foldl apply s

end Verif.Emergency.Manager
