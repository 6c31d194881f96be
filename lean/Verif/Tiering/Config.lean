/-!
# The configuration file of the tiering server

Models `checkpoint/orbax/checkpoint/experimental/tiering_service/server_config.py`: what `parse_config`
makes of the value that a YAML file contains. Reading YAML itself is not modelled.
-/
namespace Verif.Tiering.Config

/-- A value read from YAML. Of a number with a fraction only its integer part (towards zero) and whether it
is zero are kept. Infinite ones and NaN are left out, and so are dates. -/
inductive Y where
  | null
  | bool (b : Bool)
  | int (i : Int)
  | float (trunc : Int) (zero : Bool)
  | text (s : String)
  | list (xs : List Y)
  | map (kvs : List (String × Y))

/-- Python's reading and printing of values, not modelled: `int` of a text, `str` of a value that is not a
text, and `pytimeparse.parse` (whole seconds of a duration). -/
structure Lib where
  int : String → Option Int
  str : Y → String
  duration : String → Option Int

/-- The kinds of errors raised. -/
inductive Err | value | type
deriving DecidableEq, Repr

/-- `data[key]` if `key in data`. -/
def get (m : List (String × Y)) (key : String) : Option Y :=
  match m with
  | [] => none
  | (k, v) :: rest => if k = key then some v else get rest key

/-- Is the value true in a condition? -/
def Y.truthy : Y → Bool
  | .null => false
  | .bool b => b
  | .int i => i != 0
  | .float _ zero => !zero
  | .text s => s != ""
  | .list xs => !xs.isEmpty
  | .map kvs => !kvs.isEmpty

/-- `int(value)`. -/
def toInt (lib : Lib) : Y → Except Err Int
  | .bool b => .ok (if b then 1 else 0)
  | .int i => .ok i
  | .float t _ => .ok t
  | .text s => match lib.int s with | some i => .ok i | none => .error .value
  | _ => .error .type

/-- `str(value)`. -/
def toStr (lib : Lib) : Y → String
  | .text s => s
  | v => lib.str v

/-- Setting an `int64` field of a message; out of range raises. -/
def int64 (i : Int) : Except Err Int := if -2^63 ≤ i ∧ i < 2^63 then .ok i else .error .value

/-- Setting an `int32` field, or one of an (open) enumeration. -/
def int32 (i : Int) : Except Err Int := if -2^31 ≤ i ∧ i < 2^31 then .ok i else .error .value

/-- `field = int(value)` for an `int64` field. -/
def num64 (lib : Lib) (v : Y) : Except Err Int :=
  match toInt lib v with | .ok i => int64 i | .error e => .error e

/-- `field = int(value)` for an `int32` field. -/
def num32 (lib : Lib) (v : Y) : Except Err Int :=
  match toInt lib v with | .ok i => int32 i | .error e => .error e

/-- Where a backend is: at most one of the three. -/
inductive Location
  | nowhere
  | zone (z : String)
  | region (r : String)
  | multi (rs : List String)
deriving DecidableEq, Repr

/-- `StorageBackend` of `proto/tiering_service.proto:41-51`; types are numbers, 1 Lustre and 2 GCS. -/
@[ext] structure Backend where
  level : Int
  type : Int
  pfx : String
  location : Location
deriving DecidableEq, Repr

/-- `ServerConfig` of `proto/tiering_service.proto:165-172`, with its defaults. -/
@[ext] structure Cfg where
  keepAlive : Int := 1800
  db : String := "sqlite+aiosqlite:///:memory:"
  backends : List Backend := []
  maxActive : Int := 1
  project : String := ""
  account : String := ""
deriving DecidableEq, Repr

/-- `_parse_client_keep_alive`, `server_config.py:40-58`, with `_parse_timedelta` (25-37). -/
def parseKeepAlive (lib : Lib) (m : List (String × Y)) : Except Err Int :=
  match get m "client_keep_alive_interval_seconds" with
  | some v => num64 lib v
  | none =>
    match get m "client_keep_alive_interval" with
    | some (.bool b) => int64 (if b then 1 else 0)
    | some (.int i) => int64 i
    | some (.float t _) => int64 t
    | some v =>
      match lib.duration (toStr lib v) with
      | some s => int64 s
      | none => .error .value
    | none => .ok 1800

/-- `_parse_db_connection`, `server_config.py:61-66`. -/
def parseDb (lib : Lib) (m : List (String × Y)) : String :=
  match get m "db_connection_str" with
  | some v => toStr lib v
  | none => "sqlite+aiosqlite:///:memory:"

/-- `level`, `server_config.py:74-79`. -/
def parseLevel (lib : Lib) (m : List (String × Y)) : Except Err Int :=
  match get m "level" with
  | some .null => .error .value
  | some v => num32 lib v
  | none => .error .value

/-- Upper case (of ASCII letters only). -/
def upper (s : String) : List Char := s.toList.map Char.toUpper

/-- `backend_type`, `server_config.py:81-96`. Setting the field to something that is no whole number raises. -/
def parseType (m : List (String × Y)) : Except Err Int :=
  match get m "backend_type" with
  | none => .error .value
  | some v =>
    if v.truthy then
      match v with
      | .text s =>
        if upper s = "LUSTRE".toList ∨ upper s = "BACKEND_TYPE_LUSTRE".toList then .ok 1
        else if upper s = "GCS".toList ∨ upper s = "BACKEND_TYPE_GCS".toList then .ok 2
        else .error .value
      | .bool b => .ok (if b then 1 else 0)
      | .int i => int32 i
      | _ => .error .type
    else .error .value

/-- `prefix`, `server_config.py:98-103`. -/
def parsePrefix (lib : Lib) (m : List (String × Y)) : Except Err String :=
  match get m "prefix" with
  | some .null => .error .value
  | some v => .ok (toStr lib v)
  | none => .error .value

/-- `regions.extend(xs)` of a list: all must be texts. -/
def regionTexts : List Y → Except Err (List String)
  | [] => .ok []
  | .text s :: rest => match regionTexts rest with | .ok r => .ok (s :: r) | .error e => .error e
  | _ :: _ => .error .type

/-- `regions.extend(value)`: a text is a sequence of its characters, a mapping one of its keys. Simplified:
`None` raises (some versions of the library ignore it). -/
def extendRegions : Y → Except Err (List String)
  | .list xs => regionTexts xs
  | .text s => .ok (s.toList.map fun c => String.ofList [c])
  | .map kvs => .ok (kvs.map fun e => e.1)
  | _ => .error .type

/-- The value of the key if it is there and true: `key in d and d[key]`. -/
def getTrue (m : List (String × Y)) (key : String) : Option Y :=
  match get m key with
  | some v => if v.truthy then some v else none
  | none => none

/-- The several regions in the message, unless reading them raised. -/
def multi : Except Err (List String) → Except Err Location
  | .ok rs => .ok (.multi rs)
  | .error e => .error e

/-- The location, `server_config.py:105-117`. -/
def parseLocation (lib : Lib) (m : List (String × Y)) : Except Err Location :=
  match getTrue m "zone" with
  | some z => .ok (.zone (toStr lib z))
  | none =>
    match getTrue m "region" with
    | some r => .ok (.region (toStr lib r))
    | none =>
      match getTrue m "multi_regions" with
      | none => .ok .nowhere
      | some (.map kvs) =>
        match get kvs "regions" with
        | some v => multi (extendRegions v)
        | none => .error .value
      | some (.list xs) => multi (regionTexts xs)
      | some _ => .error .value

/-- `_parse_storage_backend`, `server_config.py:69-117`; whatever is not a mapping raises. -/
def parseBackend (lib : Lib) : Y → Except Err Backend
  | .map m =>
    match parseLevel lib m with
    | .error e => .error e
    | .ok level =>
      match parseType m with
      | .error e => .error e
      | .ok type =>
        match parsePrefix lib m with
        | .error e => .error e
        | .ok pfx =>
          match parseLocation lib m with
          | .error e => .error e
          | .ok location => .ok { level, type, pfx, location }
  | _ => .error .type

/-- The loop of `_parse_storage_backends`, `server_config.py:120-127`. -/
def parseList (lib : Lib) : List Y → Except Err (List Backend)
  | [] => .ok []
  | y :: ys =>
    match parseBackend lib y with
    | .error e => .error e
    | .ok b =>
      match parseList lib ys with
      | .error e => .error e
      | .ok bs => .ok (b :: bs)

/-- `_parse_storage_backends`: iterating over the value. The characters of a text and the keys of a
mapping are no mappings, so that only empty ones pass. -/
def parseBackends (lib : Lib) (m : List (String × Y)) : Except Err (List Backend) :=
  match get m "storage_backends" with
  | none => .ok []
  | some (.list xs) => parseList lib xs
  | some (.text s) => if s = "" then .ok [] else .error .value
  | some (.map kvs) => if kvs.isEmpty then .ok [] else .error .value
  | some _ => .error .type

/-- `_parse_max_active_jobs_per_backend`, `server_config.py:130-137`. -/
def parseMaxActive (lib : Lib) (m : List (String × Y)) : Except Err Int :=
  match get m "max_active_jobs_per_backend" with
  | some v => num64 lib v
  | none => .ok 1

/-- `_parse_gcp_project`, `_parse_service_account`, `server_config.py:140-153`. -/
def parseText (lib : Lib) (m : List (String × Y)) (key : String) : String :=
  match get m key with
  | some .null => ""
  | some v => toStr lib v
  | none => ""

/-- `parse_config`, `server_config.py:156-173`. An empty file is the value `null`; whatever is not a
mapping raises. -/
def parseConfig (lib : Lib) : Y → Except Err Cfg
  | .map m =>
    match parseKeepAlive lib m with
    | .error e => .error e
    | .ok keepAlive =>
      match parseBackends lib m with
      | .error e => .error e
      | .ok backends =>
        match parseMaxActive lib m with
        | .error e => .error e
        | .ok maxActive =>
          .ok { keepAlive, backends, maxActive, db := parseDb lib m,
                project := parseText lib m "gcp_project", account := parseText lib m "service_account" }
  | _ => .error .type

end Verif.Tiering.Config
