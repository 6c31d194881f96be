/-!
# Tiering service: choosing backends and storage paths, removing data

Models `checkpoint/orbax/checkpoint/experimental/tiering_service/`: `storage_backend.py`, the
matching functions of `assets.py`, path parsing and deletion of `gcp_storage_client.py`, and
`db_lib.py` (initialisation and verification of the table of backends).  Strings are lists of
characters.
-/
namespace Verif.Tiering.Routing

abbrev Str := List Char

/-- GCS or Lustre, `db_schema.py` (`BackendType`). -/
inductive BType | gcs | lustre | unspecified
deriving DecidableEq, Repr

/-- A row of the table of storage backends, `db_schema.py:175-220`. -/
structure Backend where
  level : Nat := 0
  zone : Option Str := none
  region : Option Str := none
  multi : Option (List Str) := none
  btype : BType := .gcs
  pfx : Str
deriving DecidableEq, Repr

/-- Python `str.startswith`. -/
def startsWith (s p : Str) : Bool := p.isPrefixOf s

/-- First loop of `locate_closest_backend`, `storage_backend.py:71-75`. -/
def inZone (zone : Str) (b : Backend) : Bool := decide (b.zone = some zone)

/-- Second loop, `storage_backend.py:78-85`. -/
def prefixOfZone (zone : Str) (b : Backend) : Bool :=
  (match b.region with | some r => startsWith zone r | none => false) ||
  (match b.multi with | some m => m.any (startsWith zone) | none => false)

/-- Third loop, `storage_backend.py:87-92`. -/
def inRegion (region : Str) (b : Backend) : Bool :=
  decide (b.region = some region) ||
  (match b.multi with | some m => m.contains region | none => false)

/-- `locate_closest_backend`, `storage_backend.py:51-94`. -/
def locate (bs : List Backend) (zone region : Option Str) : Option Backend :=
  let third := match region with | some r => bs.find? (inRegion r) | none => none
  match zone with
  | none => third
  | some z => match bs.find? (inZone z) with
    | some b => some b
    | none => match region with
      | some _ => third
      | none => match bs.find? (prefixOfZone z) with
        | some b => some b
        | none => third

/-- The call in `Reserve` and `Prefetch`, `server.py:124-126`, `:306-308`: `zone` and `region` are
proto3 string fields without presence (`tiering_service.proto:94-95`, `:126-127`), so a field that
the client did not set is the empty string, never `None`. -/
def serverLocate (bs : List Backend) (zone region : Option Str) : Option Backend :=
  locate bs (some (zone.getD [])) (some (region.getD []))

/-- `_get_region_from_zone`, `assets.py:453-454`: `zone.rsplit("-", 1)[0]`. -/
def regionOfZone (z : Str) : Str :=
  if z.contains '-' then ((z.reverse.dropWhile (· ≠ '-')).drop 1).reverse else z

/-- Python truth of an optional string or list. -/
def truthy {α : Type} : Option (List α) → Option (List α)
  | some (x :: xs) => some (x :: xs)
  | _ => none

/-- The source's region, `assets.py:457-461`. -/
def sourceRegion (s : Backend) : Option Str :=
  match truthy s.zone with
  | some z => some (regionOfZone z)
  | none => truthy s.region

/-- Conditions of the loops of `find_matching_backend`: `assets.py:465-467`. -/
def matchZone (s b : Backend) : Bool :=
  match truthy s.zone, truthy b.zone with
  | some z, some z' => decide (z' = z)
  | _, _ => false

/-- `assets.py:472-476`. -/
def matchRegion (r : Str) (b : Backend) : Bool :=
  (match truthy b.region with | some r' => decide (r' = r) | none => false) ||
  (match truthy b.zone with | some z => decide (regionOfZone z = r) | none => false)

/-- `assets.py:479-481`. -/
def matchMulti (r : Str) (b : Backend) : Bool :=
  match truthy b.multi with | some m => m.contains r | none => false

/-- `assets.py:486-498`. -/
def matchFromMulti (ms : List Str) (b : Backend) : Bool :=
  (match truthy b.region with | some r => ms.contains r | none => false) ||
  (match truthy b.zone with | some z => ms.contains (regionOfZone z) | none => false) ||
  (match truthy b.multi with | some m => m.any fun r => ms.contains r | none => false)

/-- `find_matching_backend`, `assets.py:432-500`. -/
def findMatching (bs : List Backend) (s : Backend) : Option Backend :=
  let last := match truthy s.multi with | some ms => bs.find? (matchFromMulti ms) | none => none
  let byRegion := match truthy (sourceRegion s) with
    | some r => match bs.find? (matchRegion r) with
      | some b => some b
      | none => match bs.find? (matchMulti r) with
        | some b => some b
        | none => last
    | none => last
  match truthy s.zone with
  | some _ => match bs.find? (matchZone s) with
    | some b => some b
    | none => byRegion
  | none => byRegion

/-- Python `rstrip("/")`. -/
def rstrip (s : Str) : Str := (s.reverse.dropWhile (· = '/')).reverse

/-- Python `lstrip("/")`. -/
def lstrip (s : Str) : Str := s.dropWhile (· = '/')

/-- The base path, `storage_backend.py:115-119`. -/
def basePath (b : Backend) (rel : Str) : Str :=
  let p := rstrip b.pfx
  if rel = p ∨ startsWith rel (p ++ ['/']) then rel else p ++ '/' :: lstrip rel

/-- `get_storage_path` with a tier path identifier, `storage_backend.py:97-124`; all calls give
one. -/
def storagePath (b : Backend) (rel uuid : Str) : Str :=
  let base := basePath b rel
  if ('/' :: uuid).isSuffixOf base then base else rstrip base ++ '/' :: uuid

/-! ## Removing the data of a tier path from a bucket -/

/-- `replace("gs://", "")`: every occurrence, left to right. -/
def dropScheme : Str → Str
  | 'g' :: 's' :: ':' :: '/' :: '/' :: rest => dropScheme rest
  | c :: rest => c :: dropScheme rest
  | [] => []

/-- `_parse_gcs_path`, `gcp_storage_client.py:208-214`: bucket and name prefix. -/
def parseGcs (p : Str) : Str × Str :=
  let q := dropScheme p
  (q.takeWhile (· ≠ '/'), (q.dropWhile (· ≠ '/')).drop 1)

/-- An object: bucket and name. -/
abbrev Obj := Str × Str

/-- The filter of `_list_objects`, `gcp_storage_client.py:394-400`. -/
def under (pre name : Str) : Bool :=
  decide (name = pre) || startsWith name (rstrip pre ++ ['/'])

/-- `_list_objects`, `gcp_storage_client.py:372-406`, for one division of the listing into pages:
the service lists the names beginning with the prefix, every page is filtered. -/
def listObjects (pages : List (List Str)) (pre : Str) : List Str :=
  (pages.map fun pg => pg.filter (under pre)).flatten

/-- What the service lists for a bucket and a prefix. -/
def listing (store : List Obj) (bucket pre : Str) : List Str :=
  (store.filter fun o => decide (o.1 = bucket) && startsWith o.2 pre).map (·.2)

/-- Consecutive chunks of `n`, `gcp_storage_client.py:423-426`. -/
def chunks {α : Type} (n : Nat) (l : List α) : List (List α) :=
  if _h : n = 0 ∨ l = [] then [] else l.take n :: chunks n (l.drop n)
termination_by l.length
decreasing_by
  simp only [not_or] at _h
  have := List.length_pos_iff.2 _h.2
  simp only [List.length_drop]; omega

/-- One batch request, `gcp_storage_client.py:428-433`, `:474-513`: `fate` says for each object whether the
service removed it (or it was gone, 404, which counts as success); any other status raises after the
whole batch was executed. -/
def batch (bucket : Str) (fate : Str → Bool) (names : List Str) (store : List Obj) : List Obj × Bool :=
  (store.filter fun o => !(decide (o.1 = bucket) && names.contains o.2 && fate o.2), names.all fate)

/-- `_delete_objects_batch`, `gcp_storage_client.py:408-433`: batch after batch until one raises. -/
def batches (bucket : Str) (fate : Str → Bool) : List (List Str) → List Obj → List Obj × Bool
  | [], store => (store, true)
  | c :: cs, store =>
    let r := batch bucket fate c store
    if r.2 then batches bucket fate cs r.1 else (r.1, false)

/-- `GcsClient.delete_path`, `gcp_storage_client.py:357-370`. -/
def deletePath (fate : Str → Bool) (pages : List (List Str)) (path : Str) (store : List Obj) :
    List Obj × Bool :=
  let bp := parseGcs path
  batches bp.1 fate (chunks 100 (listObjects pages bp.2)) store

/-! ## The table of backends -/

/-- Insertion sort of strings, for `sorted(multi_regions)`; only the fact that it is a canonical
form of the multiset matters. -/
def strLe (a b : Str) : Bool := decide (a.map Char.toNat ≤ b.map Char.toNat)

def insertStr (x : Str) : List Str → List Str
  | [] => [x]
  | y :: ys => if strLe x y then x :: y :: ys else y :: insertStr x ys

def sortStr : List Str → List Str
  | [] => []
  | x :: xs => insertStr x (sortStr xs)

/-- `_get_backend_key`, `db_lib.py:86-98`. -/
def key (b : Backend) : Nat × Option Str × Option Str × Option (List Str) :=
  (b.level, b.zone, b.region, (truthy b.multi).map sortStr)

/-- A dictionary built by a comprehension: the last entry with a key wins. -/
def lastWith (k : Nat × Option Str × Option Str × Option (List Str)) (db : List Backend) : Option Backend :=
  db.reverse.find? fun b => decide (key b = k)

/-- Is the value repeated in the list? -/
def dup {α : Type} [DecidableEq α] (l : List α) : Bool := !decide l.Nodup

/-- The checks before a flush, `db_schema.py:238-306`, for the backends of one level in the
session, and the check constraint `:209-220`: one location each, one backend type per level, no
location twice. -/
def validLevel (bs : List Backend) : Bool :=
  (bs.all fun b => bs.all fun c => decide (b.btype = c.btype)) &&
  !dup (bs.filterMap fun b => truthy b.zone) && !dup (bs.filterMap fun b => truthy b.region) &&
  !dup (bs.filterMap fun b => (truthy b.multi).map sortStr)

def oneLocation (b : Backend) : Bool :=
  match b.zone, b.region, b.multi with
  | some _, none, none | none, some _, none | none, none, some _ => true
  | _, _, _ => false

/-- The session commits if every level is valid and every row has one location. -/
def validTable (bs : List Backend) : Bool :=
  bs.all oneLocation && bs.all fun b => validLevel (bs.filter fun c => decide (c.level = b.level))

/-- `async_initialize_db`, `db_lib.py:101-147`: writes the configured backends if the table is
empty; an unknown type or an invalid session raises (`none`) and nothing is committed. -/
def initDb (cfg db : List Backend) : Option (List Backend) :=
  if db ≠ [] then some db
  else if cfg.any fun b => decide (b.btype = .unspecified) then none
  else if validTable cfg then some cfg else none

/-- Two servers that both find the table empty (`db_lib.py:119-124`) before either commits: each
session is checked on its own rows only, and both commit. -/
def initTwice (cfg : List Backend) : Option (List Backend) :=
  match initDb cfg [] with
  | some rows => some (rows ++ rows)
  | none => none

/-- `async_verify_db`, `db_lib.py:164-230`: `true` iff nothing is raised. -/
def verifyDb (cfg db : List Backend) : Bool :=
  decide (db.length = cfg.length) &&
  cfg.all fun c => decide (c.btype ≠ .unspecified) &&
    match lastWith (key c) db with
    | none => false
    | some b => decide (b.btype = c.btype) && decide (b.pfx = c.pfx)

end Verif.Tiering.Routing
