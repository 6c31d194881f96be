/-!
# The checkpoint tiering service: database transactions

Models `checkpoint/orbax/checkpoint/experimental/tiering_service/`: `db_schema.py`, `db_lib.py`,
`assets.py`, `server.py`, `job_worker.py`.

The database is three append-only tables.  A row's identifier is its position in its table (the
code uses fresh UUIDs and autoincrement keys; no row is ever removed).  Every definition below is
one database transaction, or the read phase of an RPC whose cached result a later transaction of
the same session uses.  A system state is the database, the wall clock and the RPCs and claims in
flight; an execution is any list of operations, so that every interleaving of any number of
clients, servers and workers is covered, and a crash is a request that is never continued.

Simplifications: users, tags, permissions, paths on storage and `updated_at`/`last_updated_at`
columns are left out; clock readings are natural numbers; `transfer_status` is kept only as "has a
`request_id`".
-/
namespace Verif.Tiering

/-- `db_schema.py:35-42` (`UNSPECIFIED` is never stored). -/
inductive AState | active | stored | deleted | incomplete
deriving DecidableEq, Repr

/-- `db_schema.py:72-81` (`UNSPECIFIED` is never stored). -/
inductive TState | pending | inProgress | ready | failed | deleted | deleting
deriving DecidableEq, Repr

/-- `db_schema.py:53-60`. -/
inductive JStatus | queued | processing | completed | failed
deriving DecidableEq, Repr

/-- `db_schema.py:63-69`. -/
inductive Kind | copy | delInst | delAll
deriving DecidableEq, Repr

/-- A worker is identified by host name and process id, `job_worker.py:46-73`. -/
abbrev Worker := Nat

/-- `db_schema.py:84-172`. -/
structure Asset where
  path : Nat
  state : AState
  writeExp : Option Nat := none
  finalizedAt : Option Nat := none
  deletedAt : Option Nat := none
deriving DecidableEq, Repr

/-- `db_schema.py:309-394`. -/
structure TierPath where
  asset : Nat
  backend : Nat
  state : TState := .pending
  readyAt : Option Nat := none
  expiresAt : Option Nat := none
deriving DecidableEq, Repr

/-- `db_schema.py:397-505`. -/
structure Job where
  asset : Nat
  kind : Kind
  target : Option Nat
  createdAt : Nat
  status : JStatus := .queued
  expAt : Option Nat := none
  owner : Option Worker := none
  hasReq : Bool := false
deriving DecidableEq, Repr

/-- The three tables. -/
structure DB where
  assets : List Asset := []
  tps : List TierPath := []
  jobs : List Job := []
deriving DecidableEq, Repr

/-- Static configuration: lease and keep-alive durations (the latter including the grace buffer of
`assets.py:258-276`), `max_active_jobs_per_backend`, and which backends are Lustre. -/
structure Cfg where
  lease : Nat
  keepAlive : Nat
  maxActive : Nat
  lustre : Nat → Bool
  /-- `60 * 60` seconds plus the grace buffer, `job_worker.py:602-603` -/
  lustreTtl : Nat

/-- ACTIVE_WRITE or STORED, the states of the partial unique index, `db_schema.py:149-165`. -/
def Asset.live (a : Asset) : Bool :=
  match a.state with
  | .active | .stored => true
  | _ => false

/-- PENDING, IN_PROGRESS or READY, the states of the partial unique index,
`db_schema.py:367-386`. -/
def TierPath.active (t : TierPath) : Bool :=
  match t.state with
  | .pending | .inProgress | .ready => true
  | _ => false

/-- The two partial unique indices, `db_schema.py:149-165`, `:367-386`. -/
def DB.ok (d : DB) : Bool :=
  decide (((d.assets.filter Asset.live).map Asset.path).Nodup) &&
  decide (((d.tps.filter TierPath.active).map fun t => (t.asset, t.backend)).Nodup)

/-- A transaction commits its new tables, or is rolled back with `IntegrityError` (`none`). -/
def tryCommit (new : DB) : Option DB := if new.ok then some new else none

/-- The same, for callers that only see which tables result. -/
def commit (old new : DB) : DB := (tryCommit new).getD old

def DB.setAsset (d : DB) (i : Nat) (f : Asset → Asset) : DB :=
  { d with assets := d.assets.modify i f }

def DB.setTp (d : DB) (i : Nat) (f : TierPath → TierPath) : DB :=
  { d with tps := d.tps.modify i f }

def DB.setTpsOf (d : DB) (a : Nat) (f : TierPath → TierPath) : DB :=
  { d with tps := d.tps.map fun t => if t.asset = a then f t else t }

def DB.setJob (d : DB) (i : Nat) (f : Job → Job) : DB :=
  { d with jobs := d.jobs.modify i f }

/-- Indices of the rows of a table satisfying a predicate. -/
def idxs {α : Type} (p : α → Bool) (l : List α) : List Nat :=
  (List.range l.length).filter fun i => match l[i]? with | some x => p x | none => false

/-! ## Client calls -/

/-- `fetch_asset_by_path` restricted to live assets, `assets.py:164-215`, `:340-347`: the index
makes the answer unique, so the order by creation time does not matter. -/
def DB.liveAt (d : DB) (path : Nat) : Option Nat :=
  d.assets.findIdx? fun a => a.live && a.path == path

/-- `Reserve`, `server.py:99-182`, `create_or_fetch_asset`, `assets.py:279-353`: insert the asset
and its tier path, and on a unique-index conflict return the live asset at that path.  The insert
and the look-up are two transactions in the code; here they are one step, so the error the code
raises when the live asset is deleted between the two does not arise. -/
def reserve (cfg : Cfg) (now path backend : Nat) (d : DB) : DB × Option Nat :=
  let d' : DB := { d with
    assets := d.assets ++ [{ path := path, state := .active, writeExp := some (now + cfg.keepAlive) }]
    tps := d.tps ++ [{ asset := d.assets.length, backend := backend }] }
  if d'.ok then (d', some d.assets.length) else (d, d.liveAt path)

/-- The tier path that `Reserve` tells the client to write to, `server.py:173-177`: the first one
of the asset on the backend closest to the client, `none` for the empty identifier. -/
def reserveTp (d : DB) (a backend : Nat) : Option Nat :=
  (idxs (fun t => decide (t.asset = a) && decide (t.backend = backend)) d.tps).head?

/-- `reserve_keep_alive`, `assets.py:356-378`: no test of the asset's state. -/
def reserveKeepAlive (cfg : Cfg) (now a : Nat) (d : DB) : DB :=
  d.setAsset a fun r => { r with writeExp := some (now + cfg.keepAlive) }

/-- A `Finalize` call in flight: the asset and the tier paths its session has loaded. -/
structure FinReq where
  asset : Nat
  tps : List Nat
  done : Bool := false
deriving DecidableEq, Repr

/-- Read phase of `Finalize`, `server.py:209-264`: the asset must be in ACTIVE_WRITE and have a
tier path. -/
def finalizeRead (a : Nat) (d : DB) : Option FinReq :=
  match d.assets[a]? with
  | some r =>
    if r.state = .active then
      let ts := idxs (fun t => decide (t.asset = a)) d.tps
      if ts = [] then none else some { asset := a, tps := ts }
    else none
  | none => none

/-- `finalize_asset`, `assets.py:381-429`.  The `SELECT` at :400-406 runs in the session that
already holds the asset, so SQLAlchemy returns the row as loaded in the read phase
(no `populate_existing`, as opposed to `:808`): the state test at :411 sees the state of the read
phase, which was ACTIVE_WRITE, and always passes.  `IntegrityError` ends the RPC. -/
def finalizeWrite (now : Nat) (r : FinReq) (d : DB) : Option DB :=
  let d1 := d.setAsset r.asset fun x =>
    { x with state := .stored, finalizedAt := some now, writeExp := none }
  let d2 : DB := r.tps.foldl (fun d t => d.setTp t fun x =>
    { x with state := .ready, readyAt := some now }) d1
  tryCommit d2

/-- `trigger_l0_to_l1_copy`, `assets.py:503-564`, for the level-1 backend it has chosen: a pending
tier path and a queued copy job, in a transaction of its own. -/
def triggerCopy (now l1 : Nat) (r : FinReq) (d : DB) : DB :=
  commit d { d with
    tps := d.tps ++ [{ asset := r.asset, backend := l1 }]
    jobs := d.jobs ++ [{ asset := r.asset, kind := .copy, target := some d.tps.length,
                         createdAt := now }] }

/-- `QUEUED` or `PROCESSING`, `assets.py:576-581`. -/
def Job.unfinished (j : Job) : Bool := j.status == .queued || j.status == .processing

/-- `is_delete_pending`, `assets.py:567-583`. -/
def deletePending (d : DB) (a : Nat) : Bool :=
  d.jobs.any fun j => decide (j.asset = a) && decide (j.kind = .delAll) && j.unfinished

/-- `is_tier_path_delete_pending`, `assets.py:586-608`. -/
def tpDeletePending (d : DB) (a t : Nat) : Bool :=
  d.jobs.any fun j => decide (j.asset = a) && decide (j.target = some t) &&
    decide (j.kind = .delInst) && j.unfinished

/-- A `Prefetch` call in flight that has to create a tier path; `checked` once it has passed the
test for a pending delete. -/
structure PrefReq where
  asset : Nat
  backend : Nat
  checked : Bool := false
deriving DecidableEq, Repr

/-- Read phase of `Prefetch`, `server.py:320-365`: the asset must be STORED; an active tier path
on the backend is returned as it is (`inr`), otherwise one must be created (`inl`). -/
def prefetchRead (a b : Nat) (d : DB) : Option (PrefReq ⊕ Nat) :=
  match d.assets[a]? with
  | some r =>
    if r.state = .stored then
      match (idxs (fun t => decide (t.asset = a) && t.active && decide (t.backend = b)) d.tps).head? with
      | some t => some (.inr t)
      | none => some (.inl { asset := a, backend := b })
    else none
  | none => none

/-- The test of `create_prefetch_job`, `assets.py:660-667`. -/
def prefetchCheck (r : PrefReq) (d : DB) : Option PrefReq :=
  if deletePending d r.asset then none else some { r with checked := true }

/-- The insert of `create_prefetch_job`, `assets.py:669-707`. -/
def prefetchCommit (cfg : Cfg) (now : Nat) (r : PrefReq) (d : DB) : DB :=
  commit d { d with
    tps := d.tps ++ [{ asset := r.asset, backend := r.backend, expiresAt := some (now + cfg.keepAlive) }]
    jobs := d.jobs ++ [{ asset := r.asset, kind := .copy, target := some d.tps.length,
                         createdAt := now }] }

/-- Outcome of `prefetch_keep_alive`. -/
inductive KeepAlive | notFound | prefetchFailed | deletionPending | ok
deriving DecidableEq, Repr

/-- `prefetch_keep_alive`, `assets.py:710-787`. -/
def prefetchKeepAlive (cfg : Cfg) (now t : Nat) (d : DB) : DB × KeepAlive :=
  match d.tps[t]? with
  | none => (d, .notFound)
  | some x =>
    if x.state = .failed then (d, .prefetchFailed)
    else if deletePending d x.asset then (d, .deletionPending)
    else if tpDeletePending d x.asset t then (d, .deletionPending)
    else match x.expiresAt with
      | none => (d, .ok)
      | some e =>
        if e < now + cfg.keepAlive then
          (d.setTp t fun x => { x with expiresAt := some (now + cfg.keepAlive) }, .ok)
        else (d, .ok)

/-- `Delete`, `server.py:491-551`, `queue_delete_asset_job`, `assets.py:790-828`: the row is
locked and read afresh, so this is one step.  The flag says whether the call succeeded. -/
def queueDelete (now a : Nat) (d : DB) : DB × Bool :=
  match d.assets[a]? with
  | none => (d, false)
  | some r =>
    if r.state = .deleted then (d, false)
    else if deletePending d a then (d, false)
    else ({ d with jobs := d.jobs ++ [{ asset := a, kind := .delAll, target := none,
                                        createdAt := now }] }, true)

/-! ## Workers -/

/-- `PROCESSING` with `expiration_at >= now`; a null expiration is not selected,
`db_lib.py:252-259`, `:315-322`. -/
def Job.running (now : Nat) (j : Job) : Bool :=
  decide (j.status = .processing) && (match j.expAt with | some e => decide (now ≤ e) | none => false)

/-- `QUEUED`, or `PROCESSING` with `expiration_at < now`, `db_lib.py:277-284`, `:376-384`. -/
def Job.claimable (now : Nat) (j : Job) : Bool :=
  decide (j.status = .queued) ||
  (decide (j.status = .processing) &&
    (match j.expAt with | some e => decide (e < now) | none => false))

/-- The backend of a job's target tier path, `none` without target. -/
def DB.backendOf (d : DB) (j : Job) : Option Nat :=
  match j.target with
  | none => none
  | some t => (d.tps[t]?).map (·.backend)

/-- The eligibility condition of `_claim_eligible_job`, `db_lib.py:337-387`: claimable, no running
job on the same asset, and for the requested backend (`none` asks for jobs without target). -/
def eligible (d : DB) (b : Option Nat) (now : Nat) (j : Job) : Bool :=
  j.claimable now &&
  !(d.jobs.any fun k => k.running now && decide (k.asset = j.asset)) &&
  (match b with
   | none => decide (j.target = none)
   | some _ => decide (d.backendOf j = b))

/-- The running jobs on a backend, `db_lib.py:308-325`. -/
def activeCount (d : DB) (b now : Nat) : Nat :=
  d.jobs.countP fun j => j.running now && decide (d.backendOf j = some b)

/-- `ORDER BY created_at ASC LIMIT 1`, `db_lib.py:388-390`, over row indices; on equal times the
database may return any, here the first. -/
def oldest (l : List Job) : List Nat → Option Nat
  | [] => none
  | i :: is =>
    match oldest l is, l[i]? with
    | none, _ => some i
    | some k, some x => match l[k]? with
      | some y => if y.createdAt < x.createdAt then some k else some i
      | none => some i
    | some k, none => some k

/-- A claim whose transaction has locked its job row and its backend row but not committed. -/
structure Claim where
  worker : Worker
  backend : Option Nat
  job : Nat
  now : Nat
deriving DecidableEq, Repr

/-- The reads of `acquire_next_job`, `db_lib.py:414-465`, `_try_lock_backend`, `:293-325`,
`_claim_eligible_job`, `:328-394`: the capacity test under the backend's lock (skipped for jobs
without target), then the oldest eligible job that no other transaction has locked
(`SKIP LOCKED`). -/
def claimSelect (cfg : Cfg) (w : Worker) (b : Option Nat) (now : Nat) (locked : List Nat) (d : DB) :
    Option Claim :=
  let cands := (idxs (eligible d b now) d.jobs).filter fun i => !locked.contains i
  let full : Bool := match b with | some b => !decide (activeCount d b now < cfg.maxActive) | none => false
  if full then none
  else (oldest d.jobs cands).map fun i => { worker := w, backend := b, job := i, now := now }

/-- The writes of `_claim_eligible_job`, `db_lib.py:396-411`, and the commit. -/
def claimCommit (cfg : Cfg) (c : Claim) (d : DB) : DB :=
  match d.jobs[c.job]? with
  | none => d
  | some j =>
    let d1 := d.setJob c.job fun j =>
      { j with status := .processing, expAt := some (c.now + cfg.lease), owner := some c.worker }
    let d2 := match j.kind, j.target with
      | .copy, some t => d1.setTp t fun x => { x with state := .inProgress }
      | _, _ => d1
    commit d d2

/-- The ownership test repeated in every worker transaction, e.g. `job_worker.py:259-272`. -/
def owns (d : DB) (w : Worker) (i : Nat) : Bool :=
  match d.jobs[i]? with
  | some j => decide (j.status = .processing) && decide (j.owner = some w)
  | none => false

/-- `_fail_job`, `job_worker.py:540-572`. -/
def failJob (i : Nat) (d : DB) : DB :=
  match d.jobs[i]? with
  | none => d
  | some j =>
    let d1 := d.setJob i fun j => { j with status := .failed, owner := none, expAt := none }
    match j.target with
    | some t => d1.setTp t fun x => { x with state := .failed }
    | none => d1

/-- `_complete_job`, `job_worker.py:574-610`. -/
def completeJob (cfg : Cfg) (now i : Nat) (d : DB) : DB :=
  match d.jobs[i]? with
  | none => d
  | some j =>
    let d1 := d.setJob i fun j => { j with status := .completed, owner := none, expAt := none }
    match j.kind, j.target with
    | .copy, some t => d1.setTp t fun x =>
        { x with state := .ready, readyAt := some now,
                 expiresAt := if cfg.lustre x.backend then some (now + cfg.lustreTtl) else x.expiresAt }
    | _, _ => d1

/-- `_extend_lease`, `job_worker.py:612-618`. -/
def extendLease (cfg : Cfg) (now i : Nat) (d : DB) : DB :=
  d.setJob i fun j => { j with expAt := some (now + cfg.lease) }

/-- `_extend_delete_job_lease`, `job_worker.py:159-173`. -/
def extendDelete (cfg : Cfg) (now : Nat) (w : Worker) (i : Nat) (d : DB) : DB :=
  if owns d w i then extendLease cfg now i d else d

/-- What the storage service says about a transfer, or the exception raised by asking. -/
inductive Poll | success | failed | running | permanentError | transientError
deriving DecidableEq, Repr

/-- `_poll_copy_job_status`, `job_worker.py:175-224`, `_update_job_status_after_poll`, `:241-298`,
`_handle_polling_error`, `:300-334`. -/
def pollCopy (cfg : Cfg) (now : Nat) (w : Worker) (i : Nat) (p : Poll) (d : DB) : DB :=
  if owns d w i then
    match p with
    | .success => commit d (completeJob cfg now i (extendLease cfg now i d))
    | .failed => commit d (failJob i (extendLease cfg now i d))
    | .running => extendLease cfg now i d
    | .permanentError => commit d (failJob i d)
    | .transientError => d
  else d

/-- `_save_triggered_transfer_status`, `job_worker.py:418-472`. -/
def saveTrigger (w : Worker) (i : Nat) (triggered : Bool) (d : DB) : DB :=
  if owns d w i then
    if triggered then d.setJob i fun j => { j with hasReq := true }
    else commit d (failJob i d)
  else d

/-- `_fail_job_by_id`, `job_worker.py:398-416`. -/
def failById (w : Worker) (i : Nat) (d : DB) : DB :=
  if owns d w i then commit d (failJob i d) else d

/-- `begin_delete_tier_path`, `assets.py:831-840`, and the loop of `begin_delete_asset`. -/
def beginTp (x : TierPath) : TierPath := { x with state := .deleting, readyAt := none, expiresAt := none }

/-- `complete_delete_tier_path`, `assets.py:907-924`, and the loop of `complete_delete_asset`. -/
def endTp (x : TierPath) : TierPath := { x with state := .deleted, readyAt := none, expiresAt := none }

/-- `_transition_to_deleting_in_db`, `job_worker.py:620-651`, with `begin_delete_asset`,
`assets.py:843-867`: there is no ownership test. -/
def beginDelete (now i : Nat) (d : DB) : DB :=
  match d.jobs[i]? with
  | none => d
  | some j => match j.target with
    | some t => d.setTp t beginTp
    | none => (d.setAsset j.asset fun r =>
        { r with state := .deleted, deletedAt := some now }).setTpsOf j.asset beginTp

/-- `_complete_delete_job_db_transition`, `job_worker.py:728-811`, with `complete_delete_asset`,
`assets.py:870-904`. -/
def completeDelete (cfg : Cfg) (now : Nat) (w : Worker) (i : Nat) (d : DB) : DB :=
  if owns d w i then
    match d.jobs[i]? with
    | none => d
    | some j =>
      let d1 := match j.kind, j.target with
        | .delAll, _ => (d.setAsset j.asset fun r =>
            { r with state := .deleted, deletedAt := some now }).setTpsOf j.asset endTp
        | _, some t => d.setTp t endTp
        | _, none => d
      commit d (completeJob cfg now i d1)
  else d

/-- `_find_source_tier_path`, `job_worker.py:389-396`: some tier path of the asset, other than the
target, with `ready_at` set. -/
def sourceTp (d : DB) (a target : Nat) : Option Nat :=
  (idxs (fun t => decide (t.asset = a) && t.readyAt.isSome) d.tps).find? fun i => decide (i ≠ target)

/-! ## The system -/

/-- The database, the clock, and what the servers and workers hold in memory. -/
structure Sys where
  db : DB := {}
  clk : Nat := 0
  fins : List FinReq := []
  prefs : List PrefReq := []
  claims : List Claim := []
  /-- the claims made so far: a worker keeps the job object it was given -/
  held : List (Worker × Nat) := []

/-- One step of a client, server or worker.  `now` arguments are clock readings taken at or before
the step. -/
inductive Op
  | tick (n : Nat)
  | reserve (now path backend : Nat)
  | keepAlive (now a : Nat)
  | finRead (a : Nat)
  | finWrite (now k : Nat)
  | finTrigger (now l1 k : Nat)
  | prefRead (a b : Nat)
  | prefCheck (k : Nat)
  | prefCommit (now k : Nat)
  | prefKeepAlive (now t : Nat)
  | delete (now a : Nat)
  | claim (w : Worker) (b : Option Nat) (now : Nat)
  | claimSelect (w : Worker) (b : Option Nat) (now : Nat)
  | claimCommit (k : Nat)
  | trigger (w : Worker) (i : Nat) (ok : Bool)
  | poll (now : Nat) (w : Worker) (i : Nat) (p : Poll)
  | heartbeat (now : Nat) (w : Worker) (i : Nat)
  | beginDelete (now : Nat) (w : Worker) (i : Nat)
  | endDelete (now : Nat) (w : Worker) (i : Nat)
  | fail (w : Worker) (i : Nat)
deriving DecidableEq, Repr

/-- The job rows locked by transactions in flight (`with_for_update`). -/
def Sys.locked (s : Sys) : List Nat := s.claims.map (·.job)

/-- Is the backend row locked?  Jobs without target need no backend lock, `db_lib.py:448`. -/
def Sys.backendLocked (s : Sys) (b : Option Nat) : Bool :=
  match b with
  | none => false
  | some b => s.claims.any fun c => decide (c.backend = some b)

def Sys.setDb (s : Sys) (d : DB) : Sys := { s with db := d }

/-- One step.  A step that cannot be taken (a row is locked, there is no such request, the reading
is ahead of the clock, the worker never claimed the job) leaves the state as it is. -/
def step (cfg : Cfg) (s : Sys) : Op → Sys
  | .tick n => { s with clk := s.clk + n }
  | .reserve now p b => if now ≤ s.clk then s.setDb (reserve cfg now p b s.db).1 else s
  | .keepAlive now a => if now ≤ s.clk then s.setDb (reserveKeepAlive cfg now a s.db) else s
  | .finRead a => match finalizeRead a s.db with
    | some r => { s with fins := s.fins ++ [r] }
    | none => s
  | .finWrite now k =>
    if now ≤ s.clk then
      match s.fins[k]? with
      | some r => if r.done then s else
          match finalizeWrite now r s.db with
          | some d => { s with db := d, fins := s.fins.set k { r with done := true } }
          | none => { s with fins := s.fins.eraseIdx k }
      | none => s
    else s
  | .finTrigger now l1 k =>
    if now ≤ s.clk then
      match s.fins[k]? with
      | some r => if r.done then
          { s with db := triggerCopy now l1 r s.db, fins := s.fins.eraseIdx k } else s
      | none => s
    else s
  | .prefRead a b => match prefetchRead a b s.db with
    | some (.inl r) => { s with prefs := s.prefs ++ [r] }
    | _ => s
  | .prefCheck k => match s.prefs[k]? with
    | some r => match prefetchCheck r s.db with
      | some r' => { s with prefs := s.prefs.set k r' }
      | none => { s with prefs := s.prefs.eraseIdx k }
    | none => s
  | .prefCommit now k =>
    if now ≤ s.clk then
      match s.prefs[k]? with
      | some r => if r.checked then
          { s with db := prefetchCommit cfg now r s.db, prefs := s.prefs.eraseIdx k } else s
      | none => s
    else s
  | .prefKeepAlive now t => if now ≤ s.clk then s.setDb (prefetchKeepAlive cfg now t s.db).1 else s
  | .delete now a => if now ≤ s.clk then s.setDb (queueDelete now a s.db).1 else s
  | .claim w b now =>
    if now ≤ s.clk ∧ s.backendLocked b = false then
      match claimSelect cfg w b now s.locked s.db with
      | some c => { s with db := claimCommit cfg c s.db, held := (w, c.job) :: s.held }
      | none => s
    else s
  | .claimSelect w b now =>
    if now ≤ s.clk ∧ s.backendLocked b = false then
      match claimSelect cfg w b now s.locked s.db with
      | some c => { s with claims := s.claims ++ [c] }
      | none => s
    else s
  | .claimCommit k => match s.claims[k]? with
    | some c => { s with db := claimCommit cfg c s.db, claims := s.claims.eraseIdx k,
                         held := (c.worker, c.job) :: s.held }
    | none => s
  | .trigger w i ok =>
    if (w, i) ∈ s.held ∧ i ∉ s.locked then s.setDb (saveTrigger w i ok s.db) else s
  | .poll now w i p =>
    if now ≤ s.clk ∧ (w, i) ∈ s.held ∧ i ∉ s.locked then
      match s.db.jobs[i]? with
      | some j => if j.kind = .copy ∧ j.hasReq then s.setDb (pollCopy cfg now w i p s.db) else s
      | none => s
    else s
  | .heartbeat now w i =>
    if now ≤ s.clk ∧ (w, i) ∈ s.held ∧ i ∉ s.locked then
      match s.db.jobs[i]? with
      | some j => if j.kind = .copy then s else s.setDb (extendDelete cfg now w i s.db)
      | none => s
    else s
  | .beginDelete now w i =>
    if now ≤ s.clk ∧ (w, i) ∈ s.held then
      match s.db.jobs[i]? with
      | some j => if j.kind = .copy then s else s.setDb (beginDelete now i s.db)
      | none => s
    else s
  | .endDelete now w i =>
    if now ≤ s.clk ∧ (w, i) ∈ s.held ∧ i ∉ s.locked then
      match s.db.jobs[i]? with
      | some j => if j.kind = .copy then s else s.setDb (completeDelete cfg now w i s.db)
      | none => s
    else s
  | .fail w i =>
    if (w, i) ∈ s.held ∧ i ∉ s.locked then s.setDb (failById w i s.db) else s

/-- An execution. -/
def run (cfg : Cfg) (s : Sys) : List Op → Sys
  | [] => s
  | o :: os => run cfg (step cfg s o) os

end Verif.Tiering
