import Verif.Assoc

/-!
# Peer-to-peer checkpoints: who holds what, and whom to ask

Models `experimental/emergency/p2p/peer_selector.py`, `registry.py`, `local.py` (`scan_stored_steps`)
and `utils.py` (`detect_process_index`) under `checkpoint/orbax/checkpoint`.

A mesh is given by its replicas: for each replica the process of each device, in the order of the
flattened device array (`peer_selector.py:66-73`).  The device at position `k` of every replica holds
the same part of the state.
-/
namespace Verif.Emergency.Peers
open Verif.Assoc

abbrev Mesh := List (List Nat)

/-- The processes of a replica in the order in which they are first met, `peer_selector.py:75-81`. -/
def firstSeen (row : List Nat) : List Nat :=
  row.foldl (fun acc d => if d ∈ acc then acc else acc ++ [d]) []

/-- Process to (replica, relative id). -/
abbrev Topology := List (Nat × (Nat × Nat))

/-- The inner loop, `peer_selector.py:83-85`. -/
def addRow (m : Topology) (rid : Nat) (row : List Nat) : Topology :=
  ((firstSeen row).zipIdx).foldl (fun m e => put m e.1 (rid, e.2)) m

/-- `_build_topology_map`, `peer_selector.py:58-87`. -/
def topology (mesh : Mesh) : Topology :=
  (mesh.zipIdx).foldl (fun m e => addRow m e.2 e.1) []

/-- `PeerDiscoveryInfo`, `protocol.py:39-61`.  `host` stands for the address and port.  The process is
`None` (with no steps) for a host that has nothing stored. -/
structure Info where
  host : Nat
  proc : Option Nat
  steps : List Nat
  replica : Int := -1
deriving DecidableEq, Repr

/-- Step to process to peer, `registry.py:31-36`. -/
abbrev Registry := List (Nat × List (Nat × Info))

/-- `register_peer`, `registry.py:40-51`: later entries replace earlier ones. -/
def register (reg : Registry) (peer : Info) : Registry :=
  match peer.proc with
  | none => reg
  | some p => peer.steps.foldl (fun reg s => put reg s (put ((Assoc.get reg s).getD []) p peer)) reg

/-- `peer_selector.py:45-53`: the replica is filled in for processes of the mesh. -/
def enrich (topo : Topology) (peer : Info) : Info :=
  match peer.proc.bind (Assoc.get topo) with
  | some m => { peer with replica := m.1 }
  | none => peer

/-- `PeerSelector.__init__`, `peer_selector.py:32-56`. -/
def registry (mesh : Mesh) (infos : List Info) : Registry :=
  infos.foldl (fun reg i => register reg (enrich (topology mesh) i)) []

/-- Is the process in the mesh, with this relative id? `peer_selector.py:104-107`, `:142-149`. -/
def hasRel (topo : Topology) (rel : Nat) (s : Nat × Info) : Bool :=
  match Assoc.get topo s.1 with
  | some m => decide (m.2 = rel)
  | none => false

/-- Does some shard of the map have this relative id? `peer_selector.py:103-107`. -/
def available (topo : Topology) (shards : List (Nat × Info)) (rel : Nat) : Bool :=
  shards.any (hasRel topo rel)

/-- `get_latest_complete_step`, `peer_selector.py:89-112`. -/
def latestComplete (topo : Topology) (reg : Registry) : Option Nat :=
  if topo = [] then none
  else ((keys reg).filter fun step =>
    topo.all fun e => available topo ((Assoc.get reg step).getD []) e.2.2).max?

/-- `candidates.sort(key=replica_id)`, `peer_selector.py:156`: a stable sort. -/
def insertByReplica (x : Info) : List Info → List Info
  | [] => [x]
  | y :: l => if y.replica ≤ x.replica then y :: insertByReplica x l else x :: y :: l

def sortByReplica (l : List Info) : List Info := l.foldl (fun acc x => insertByReplica x acc) []

/-- `get_source_peer`, `peer_selector.py:118-160`. -/
def sourcePeer (topo : Topology) (reg : Registry) (step target : Nat) : Option Info :=
  match Assoc.get reg step with
  | none => none
  | some shards =>
    match Assoc.get shards target with
    | some peer => some peer
    | none =>
      match Assoc.get topo target with
      | none => none
      | some tm =>
        let candidates := (shards.filter (hasRel topo tm.2)).map fun s => s.2
        if candidates = [] then none
        else (sortByReplica candidates)[tm.1 % candidates.length]?

/-- What a host has on its disk: the steps in ascending order, each with the process whose data it is
(`detect_process_index`, `utils.py:40-60`; `none` if it cannot be told). -/
abbrev Disk := List (Nat × Option Nat)

/-- `scan_stored_steps`, `local.py:205-230`, and the message made of it,
`checkpoint_manager.py:90-109`: every step is attributed to the process of the latest one.  `none` is
the `ValueError`. -/
def advert (host : Nat) (disk : Disk) : Option Info :=
  match disk.getLast? with
  | none => some ⟨host, none, [], -1⟩
  | some (_, none) => none
  | some (_, some p) => some ⟨host, some p, disk.map Prod.fst, -1⟩

end Verif.Emergency.Peers
