/-!
# Who may do what at the tiering service

Models `auth.py` (checkpoint/orbax/checkpoint/experimental/tiering_service/auth.py:30-148),
`storage_backend.verify_prefetch_permissions` (storage_backend.py:145-192) and the order of
lookups, checks and effects in the handlers of `TieringServiceServicer`
(server.py:99-580).

Simplifications, for the whole file: what a handler does to the database once it is
allowed to is a parameter (`Ops`; it is modelled in Model.lean), and an operation that
raises leaves the database as it was (the session is rolled back); which backend is
closest to the caller and how a storage path is built are parameters (modelled in
Routing.lean); the two functions that ask a storage system for permissions are
parameters, so that the theorems hold for every implementation of them, with the
present one as `stub`; `context.abort` raises, as it does in grpc.aio, so nothing after
it runs.
-/

namespace Verif.Tiering.Auth

/-- `BackendType` (db_schema.py). -/
inductive Kind where
  | gcs
  | lustre
  | unknown
  deriving DecidableEq

/-- `StorageBackend`. -/
structure Backend where
  id : Nat
  kind : Kind
  deriving DecidableEq

/-- `TierPath`; `live` if its state is PENDING, IN_PROGRESS or READY. -/
structure TierPath where
  uuid : String
  backend : Backend
  path : String
  live : Bool
  deriving DecidableEq

/-- `AssetState`. -/
inductive AState where
  | writing
  | stored
  | deleted
  deriving DecidableEq

/-- `Asset`. -/
structure Asset where
  uuid : String
  path : String
  state : AState
  tiers : List TierPath
  deriving DecidableEq

/-- The database. -/
abbrev DB := List Asset

/-- gRPC metadata: headers in order. -/
abbrev Metadata := List (String × String)

/-- The last value of a header: `dict(metadata).get(name)` (auth.py:44-46). -/
def header (md : Metadata) (name : String) : Option String :=
  (md.reverse.find? (fun e => e.1 == name)).map (·.2)

/-- `get_oauth_token` (auth.py:30-57). -/
def getToken (md : Metadata) : Option String :=
  match header md "authorization" with
  | none => none
  | some h =>
    if "Bearer ".toList.isPrefixOf h.toList then some (String.ofList (h.toList.drop 7)) else none

/-- The two functions that ask a storage system. -/
structure Verifier where
  /-- `verify_gcs_permissions` (auth.py:60-79): token, path, permissions -/
  gcs : Option String → String → List String → Bool
  /-- `verify_lustre_permissions` (auth.py:82-95): token, path -/
  lustre : Option String → String → Bool

/-- The implementation at this commit: any token will do (auth.py:75-79, 93-95). -/
def stub : Verifier where
  gcs token _ _ := token.isSome
  lustre token _ := token.isSome

/-- `has_read_permission` (auth.py:98-120). -/
def hasRead (v : Verifier) (token : Option String) (b : Backend) (path : String) : Bool :=
  match b.kind with
  | .gcs => v.gcs token path ["storage.objects.get"]
  | .lustre => v.lustre token path
  | .unknown => false

/-- `has_write_permission` (auth.py:123-148). -/
def hasWrite (v : Verifier) (token : Option String) (b : Backend) (path : String) : Bool :=
  match b.kind with
  | .gcs => v.gcs token path ["storage.objects.create"]
  | .lustre => v.lustre token path
  | .unknown => false

/-- A uuid or a path (the `identifier` of a request). -/
inductive Ident where
  | uuid (u : String)
  | path (p : String)
  deriving DecidableEq

/-- The assets that `fetch_asset_by_identifier` returns for the given states. -/
def fetch (db : DB) (i : Ident) (states : List AState) : List Asset :=
  db.filter fun a => (match i with | .uuid u => a.uuid == u | .path p => a.path == p) && states.contains a.state

/-- How a call ends: an error, or the assets in the response. -/
inductive Resp where
  | denied
  | notFound
  | invalid
  | precondition
  | internal
  | ok (assets : List Asset)
  deriving DecidableEq

/-- What the handlers do to the database when they may. -/
structure Ops where
  /-- `create_or_fetch_asset`: path, backend, storage path, uuid of the tier path -/
  create : DB → String → Backend → String → String → Option (DB × Asset)
  /-- `finalize_asset` and `trigger_l0_to_l1_copy` -/
  finalize : DB → Asset → Option (DB × Asset)
  /-- `create_prefetch_job` -/
  prefetch : DB → Asset → Backend → String → String → Except Resp (DB × Asset)
  /-- `queue_delete_asset_job` -/
  delete : DB → Asset → Option DB
  /-- `reserve_keep_alive`: uuid of the asset -/
  keepWriting : DB → String → Option DB
  /-- `prefetch_keep_alive`: uuid of the tier path -/
  keepReading : DB → String → Except Resp (DB × Asset)
  /-- `get_storage_path`: backend, path of the asset, uuid of the tier path -/
  storagePath : Backend → String → String → String

/-- `Reserve` (server.py:99-182). `loc` is whether a zone or a region is given, `closest`
the closest backend, `fresh` the new uuid. -/
def reserve (v : Verifier) (ops : Ops) (md : Metadata) (path : String) (loc : Bool)
    (closest : Option Backend) (fresh : String) (db : DB) : DB × Resp :=
  if loc = false then (db, .invalid)
  else match closest with
    | none => (db, .internal)
    | some b =>
      let sp := ops.storagePath b path fresh
      if hasWrite v (getToken md) b sp then
        match ops.create db path b sp fresh with
        | some (db', a) => (db', .ok [a])
        | none => (db, .internal)
      else (db, .denied)

/-- `ReserveKeepAlive` (server.py:184-207). -/
def reserveKeepAlive (ops : Ops) (_md : Metadata) (uuid : String) (db : DB) : DB × Resp :=
  match ops.keepWriting db uuid with
  | some db' => (db', .ok [])
  | none => (db, .notFound)

/-- `Finalize` (server.py:209-287): the permission is checked on the first tier path. -/
def finalize (v : Verifier) (ops : Ops) (md : Metadata) (uuid : String) (db : DB) : DB × Resp :=
  match db.find? (fun a => a.uuid == uuid) with
  | none => (db, .notFound)
  | some a =>
    if a.state = .writing then
      match a.tiers with
      | [] => (db, .precondition)
      | tp :: _ =>
        if hasWrite v (getToken md) tp.backend tp.path then
          match ops.finalize db a with
          | some (db', a') => (db', .ok [a'])
          | none => (db, .precondition)
        else (db, .denied)
    else (db, .precondition)

/-- `verify_prefetch_permissions` (storage_backend.py:145-192). -/
def prefetchAllowed (v : Verifier) (token : Option String) (a : Asset) (b : Backend) (sp : String) : Bool :=
  (match a.tiers with
   | [] => true
   | tp :: _ => hasRead v token tp.backend tp.path) &&
  hasRead v token b sp

/-- `Prefetch` (server.py:289-433). -/
def prefetch (v : Verifier) (ops : Ops) (md : Metadata) (i : Ident) (loc : Bool)
    (closest : Option Backend) (fresh : String) (db : DB) : DB × Resp :=
  if loc = false then (db, .invalid)
  else match closest with
    | none => (db, .notFound)
    | some b =>
      match fetch db i [.stored] with
      | [] => (db, .notFound)
      | a :: _ =>
        if a.tiers.any (fun tp => tp.live && tp.backend.id == b.id) then (db, .ok [a])
        else
          let sp := ops.storagePath b a.path fresh
          if prefetchAllowed v (getToken md) a b sp then
            match ops.prefetch db a b sp fresh with
            | .ok (db', a') => (db', .ok [a'])
            | .error r => (db, r)
          else (db, .denied)

/-- `PrefetchKeepAlive` (server.py:435-489). -/
def prefetchKeepAlive (ops : Ops) (_md : Metadata) (uuid : String) (db : DB) : DB × Resp :=
  match ops.keepReading db uuid with
  | .ok (db', a) => (db', .ok [a])
  | .error r => (db, r)

/-- `Delete` (server.py:491-551): the permission is checked on every tier path. -/
def delete (v : Verifier) (ops : Ops) (md : Metadata) (i : Ident) (db : DB) : DB × Resp :=
  match fetch db i [.writing, .stored] with
  | [] => (db, .notFound)
  | a :: _ =>
    if a.tiers.all (fun tp => hasWrite v (getToken md) tp.backend tp.path) then
      match ops.delete db a with
      | some db' => (db', .ok [])
      | none => (db, .internal)
    else (db, .denied)

/-- `Info` (server.py:553-580). -/
def info (_md : Metadata) (i : Ident) (db : DB) : DB × Resp :=
  match fetch db i [.writing, .stored] with
  | [] => (db, .notFound)
  | as => (db, .ok as)

end Verif.Tiering.Auth
