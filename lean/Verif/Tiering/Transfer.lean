import Verif.Tiering.Routing

/-!
# Tiering service: copying between storage systems

Models `checkpoint/orbax/checkpoint/experimental/tiering_service/`: the transfer clients of
`gcp_storage_client.py` (choice of the client, the copy request, what a poll concludes, the stored
transfer status), and their use by `job_worker.py` (`_process_job`, `_process_copy_job`,
`_save_triggered_transfer_status`, `_poll_copy_job_status`, `_update_job_status_after_poll`,
`_handle_polling_error`).  One job of type COPY, owned by the worker throughout; leases, ownership and
time stamps are modelled in `Model.lean`.  Paths are lists of characters, keys of dictionaries strings.
-/
namespace Verif.Tiering.Transfer

open Verif.Tiering.Routing

/-- Class of exception, as the worker tells them apart (`job_worker.py:208-210`): `ValueError` and its
subclasses, or anything else. -/
inductive Err | value | other
deriving DecidableEq, Repr

/-- The three transfer clients, `gcp_storage_client.py:217`, `:576`, `:617`. -/
inductive Kind | gcsToGcs | lustreToGcs | gcsToLustre
deriving DecidableEq, Repr

/-- `__class__.__name__` of a client, `job_worker.py:515`. -/
def Kind.name : Kind → Str
  | .gcsToGcs => "GcsToGcsTransferClient".toList
  | .lustreToGcs => "LustreToGcsClient".toList
  | .gcsToLustre => "GcsToLustreClient".toList

/-- A client: `GCPStorageClient.__init__` and `GcpLustreBaseClient.__init__`,
`gcp_storage_client.py:108-125`, `:521-538`, without project and service account. -/
structure Client where
  kind : Kind
  zone : Option Str
  inst : Option Str
  pfx : Option Str
deriving DecidableEq, Repr

/-- A builder of a Lustre client, `gcp_storage_client.py:746-756`, `:771-781`: the zone of the Lustre
side must be given, the instance is named after it. -/
def buildLustre (k : Kind) (b : Backend) : Except Err Client :=
  match b.zone with
  | none => .error .value
  | some z => if z = [] then .error .value
    else .ok { kind := k, zone := some z, inst := some ("lustre-".toList ++ z), pfx := some b.pfx }

/-- `determine_client` with the registered builders, `gcp_storage_client.py:717-798`. -/
def determineClient (src dst : Backend) : Except Err Client :=
  match src.btype, dst.btype with
  | .gcs, .gcs => .ok { kind := .gcsToGcs, zone := none, inst := none, pfx := none }
  | .lustre, .gcs => buildLustre .lustreToGcs src
  | .gcs, .lustre => buildLustre .gcsToLustre dst
  | _, _ => .error .value

/-- A request to begin copying: a job of the Storage Transfer Service (`gcp_storage_client.py:245-268`)
or an import or export of Managed Lustre (`:587-608`, `:627-651`). -/
inductive Request
  | sts (srcBucket srcPath dstBucket dstPath : Str)
  | lustreImport (zone inst uri path requestId : Str)
  | lustreExport (zone inst uri path requestId : Str)
deriving DecidableEq, Repr

/-- A directory as a URI, `gcp_storage_client.py:597`, `:636-640`. -/
def dirUri (p : Str) : Str := if (['/'] : Str).isSuffixOf p then p else p ++ ['/']

/-- The path inside the Lustre file system, `gcp_storage_client.py:598-603`, `:641-646`. -/
def lustrePath (pfx : Option Str) (path : Str) : Str :=
  match pfx with
  | none => path
  | some p =>
    if p = [] then path
    else if path = p then ['/']
    else if startsWith path (rstrip p ++ ['/']) then path.drop (rstrip p).length
    else path

/-- The request of `trigger_copy`, `gcp_storage_client.py:227-268`, `:579-608`, `:620-651`. -/
def request (c : Client) (requestId source target : Str) : Request :=
  match c.kind with
  | .gcsToGcs => .sts (parseGcs source).1 (parseGcs source).2 (parseGcs target).1 (parseGcs target).2
  | .gcsToLustre => .lustreImport (c.zone.getD []) (c.inst.getD []) (dirUri source)
      (lustrePath c.pfx target) requestId
  | .lustreToGcs => .lustreExport (c.zone.getD []) (c.inst.getD []) (dirUri target)
      (lustrePath c.pfx source) requestId

/-- A JSON value in a status or a reply: text (that is not a numeral), a numeral as text, an integer,
null, or something else (a list, a dictionary, a truth value, a fraction). -/
inductive Val
  | text (s : Str)
  | numeral (i : Int)
  | int (i : Int)
  | null
  | mixed (n : Nat)
deriving DecidableEq, Repr

/-- The items of a dictionary. -/
abbrev Details := List (String × Val)

/-- The body of a reply about an operation. -/
structure Body where
  done : Bool := false
  error : Option Val := none
  response : Details := []
  metadata : Details := []
  /-- `metadata["status"]` -/
  opStatus : Option Str := none
  /-- `metadata["counters"]["bytesTransferredToSink"]` -/
  sent : Option Val := none
  /-- `metadata["counters"]["bytesFoundToTransfer"]` -/
  found : Option Val := none
deriving Repr

/-- Reply to a poll: no reply, a code other than 200, a body that is no JSON, a JSON body. -/
inductive Reply
  | unreachable
  | code (n : Nat)
  | garbled
  | body (b : Body)
deriving Repr

/-- `OperationStatus`, `gcp_storage_client.py:38-43`. -/
inductive OpStatus | inProgress | success | failed
deriving DecidableEq, Repr

/-- `OperationStatus.value`. -/
def OpStatus.value : OpStatus → Str
  | .inProgress => "IN_PROGRESS".toList
  | .success => "SUCCESS".toList
  | .failed => "FAILED".toList

/-- `Result`, `gcp_storage_client.py:46-49`. -/
structure Result where
  status : OpStatus
  details : Details
deriving Repr

/-- `int(counters.get(key, 0))`, `gcp_storage_client.py:320-321`: text that is no numeral raises
`ValueError`, null and containers `TypeError`.  Simplified: fractions and truth values, which Python
truncates, count as containers. -/
def toInt : Option Val → Except Err Int
  | none => .ok 0
  | some (.int i) => .ok i
  | some (.numeral i) => .ok i
  | some (.text _) => .error .value
  | some .null => .error .other
  | some (.mixed _) => .error .other

/-- The status line and the body, `gcp_storage_client.py:307-314`, `:551-556`: `response.json()` raises
`JSONDecodeError`, a `ValueError`. -/
def readReply : Reply → Except Err Body
  | .unreachable => .error .other
  | .code _ => .error .other
  | .garbled => .error .value
  | .body b => .ok b

/-- `GcsToGcsTransferClient.poll_operation`, `gcp_storage_client.py:314-349`. -/
def pollSts (b : Body) : Except Err Result :=
  if !b.done then
    match toInt b.sent with
    | .error e => .error e
    | .ok s => match toInt b.found with
      | .error e => .error e
      | .ok f => .ok { status := .inProgress, details := [("bytes_copied", .int s), ("total_bytes", .int f)] }
  else match b.error with
    | some e => .ok { status := .failed, details := [("error", e)] }
    | none =>
      if b.opStatus = some "SUCCESS".toList then .ok { status := .success, details := [] }
      else .ok { status := .failed, details := [("error", .text ("STS Operation ended with status: ".toList
        ++ b.opStatus.getD "None".toList))] }

/-- `GcpLustreBaseClient.poll_operation`, `gcp_storage_client.py:556-573`. -/
def pollLustre (b : Body) : Except Err Result :=
  if b.done then
    match b.error with
    | some e => .ok { status := .failed, details := [("error", e)] }
    | none => .ok { status := .success, details := b.response }
  else .ok { status := .inProgress, details := b.metadata }

/-- `poll_operation`, `gcp_storage_client.py:296-349`, `:540-573`. -/
def pollOperation (k : Kind) (r : Reply) : Except Err Result :=
  match readReply r with
  | .error e => .error e
  | .ok b => match k with
    | .gcsToGcs => pollSts b
    | _ => pollLustre b

/-- The dictionary stored with the job (`transfer_status`). -/
abbrev Status := String → Option Val

/-- `d[k] = v`. -/
def Status.put (d : Status) (k : String) (v : Val) : Status := fun k' => if k' = k then some v else d k'

/-- The empty dictionary. -/
def Status.empty : Status := fun _ => none

/-- String fields of `TransferStatus`, `tiering_service.proto:174-182`, in the flat dictionary. -/
def textKeys : List String := ["request_id", "status", "client_type", "zone"]

/-- Integer fields. -/
def intKeys : List String := ["bytes_copied", "total_bytes"]

/-- What `ParseDict` accepts for a string field. -/
def textOk : Option Val → Bool
  | some (.int _) => false
  | some (.mixed _) => false
  | _ => true

/-- What `ParseDict` accepts for an integer field; the range of 64 bits is left out. -/
def intOk : Option Val → Bool
  | some (.text _) => false
  | some (.mixed _) => false
  | _ => true

/-- A string field through `MessageToDict`: null and the empty string are not written. -/
def textOut : Option Val → Option Val
  | some .null => none
  | some (.text []) => none
  | v => v

/-- An integer field through `MessageToDict` and `int`: null and zero are not written. -/
def intOut : Option Val → Option Val
  | some (.int i) => if i = 0 then none else some (.int i)
  | some (.numeral i) => if i = 0 then none else some (.int i)
  | some .null => none
  | v => v

/-- `serialize_transfer_status` after `deserialize_transfer_status`, `gcp_storage_client.py:660-692`;
`none`: `ParseError`, which is not a `ValueError`.  Keys that are no fields pass through
`detail_info`. -/
def roundTrip (d : Status) : Option Status :=
  if textKeys.all (fun k => textOk (d k)) && intKeys.all (fun k => intOk (d k)) then
    some fun k => if k ∈ textKeys then textOut (d k) else if k ∈ intKeys then intOut (d k) else d k
  else none

/-- The loop over `detail_info`, `job_worker.py:279-284`. -/
def addDetails : Status → Details → Status
  | d, [] => d
  | d, (k, v) :: rest => addDetails (if k = "error" then d else d.put k v) rest

/-- `status_dict.get(key)` with Python's truth: text that is not empty. Other values: the code compares
them with class names or formats them; here they count as missing (simplified; the stored status has
passed `roundTrip`). -/
def getText (d : Status) (k : String) : Option Str :=
  match d k with
  | some (.text s) => if s = [] then none else some s
  | _ => none

/-- `get_client_from_status`, `gcp_storage_client.py:801-838`: only the class and the zone. -/
def clientOfStatus (d : Status) : Except Err Kind :=
  match getText d "client_type" with
  | none => .error .value
  | some t =>
    if t = "GcsToGcsClient".toList ∨ t = "GcsToGcsTransferClient".toList then .ok .gcsToGcs
    else if t = "LustreToGcsClient".toList then
      match getText d "zone" with | none => .error .value | some _ => .ok .lustreToGcs
    else if t = "GcsToLustreClient".toList then
      match getText d "zone" with | none => .error .value | some _ => .ok .gcsToLustre
    else .error .value

/-- `JobStatus`, as far as used here. -/
inductive JState | processing | completed | failed
deriving DecidableEq, Repr

/-- The job with its record of what was sent: copy requests and polls (the service asked, by class of
client, and the name of the operation). -/
structure Run where
  state : JState
  status : Status
  sent : List Request
  polled : List (Kind × Val)

/-- A job as acquired for the first time. -/
def fresh : Run := { state := .processing, status := Status.empty, sent := [], polled := [] }

/-- `_fail_job`, `job_worker.py:540-572`; the text of the error is left out. -/
def failJob (j : Run) (d : Status) : Run :=
  { j with state := .failed, status := d.put "error" (.mixed 0) }

/-- The status saved after the copy was requested, `job_worker.py:457-466`. -/
def savedStatus (c : Client) (op : Str) : Status :=
  let d := ((Status.empty.put "request_id" (.text op)).put "status" (.text (OpStatus.value .inProgress))).put
    "client_type" (.text c.kind.name)
  let d := match c.zone with | none => d | some z => if z = [] then d else d.put "zone" (.text z)
  fun k => textOut (d k)

/-- How the call of `trigger_copy` ends: with an exception, with the name of the operation, or the
worker dies before the name is saved. -/
inductive Outcome
  | raises
  | started (op : Str)
  | dies
deriving DecidableEq, Repr

/-- `_process_job` and `_process_copy_job` with `_save_triggered_transfer_status`,
`job_worker.py:336-349`, `:474-517`, `:418-472`, for a source and a target that were found. -/
def processJob (src dst : Backend) (rid source target : Str) (j : Run) (o : Outcome) : Run :=
  if j.state ≠ .processing then j
  else if (j.status "request_id").isSome then j
  else match determineClient src dst with
    | .error _ => failJob j (Status.empty.put "status" (.text (OpStatus.value .failed)))
    | .ok c =>
      let j' := { j with sent := j.sent ++ [request c rid source target] }
      match o with
      | .raises => failJob j' (Status.empty.put "status" (.text (OpStatus.value .failed)))
      | .started op => { j' with status := savedStatus c op }
      | .dies => j'

/-- `_poll_copy_job_status`, `job_worker.py:175-224`, with `_update_job_status_after_poll` (`:241-298`)
and `_handle_polling_error` (`:300-334`); only jobs being processed are polled (`get_active_jobs`). -/
def pollJob (j : Run) (r : Reply) : Run :=
  if j.state ≠ .processing then j
  else match j.status "request_id" with
    | none => j
    | some req => match clientOfStatus j.status with
      | .error _ => failJob j (j.status.put "status" (.text (OpStatus.value .failed)))
      | .ok k =>
        let j' := { j with polled := j.polled ++ [(k, req)] }
        match pollOperation k r with
        | .error .value => failJob j' (j.status.put "status" (.text (OpStatus.value .failed)))
        | .error .other => j'
        | .ok res =>
          match roundTrip (addDetails (j.status.put "status" (.text res.status.value)) res.details) with
          | none => j'
          | some d => match res.status with
            | .success => { j' with state := .completed, status := d }
            | .failed => failJob j' d
            | .inProgress => { j' with status := d }

/-- What happens to the job: a worker acquires it (again), or polls it. -/
inductive Event
  | acquire (o : Outcome)
  | poll (r : Reply)

/-- One event. -/
def step (src dst : Backend) (rid source target : Str) (j : Run) : Event → Run
  | .acquire o => processJob src dst rid source target j o
  | .poll r => pollJob j r

/-- A history of the job. -/
def run (src dst : Backend) (rid source target : Str) (evs : List Event) : Run :=
  evs.foldl (step src dst rid source target) fresh

end Verif.Tiering.Transfer
