/-!
# Peer-to-peer checkpoint transfer: framing, downloads, fetching a shard

Models `checkpoint/orbax/checkpoint/experimental/emergency/p2p/protocol.py` (`TCPMessage`,
`TCPClient.download`) and `service.py` (`_safe_path_join`, `handle_get_manifest`,
`fetch_shard_from_peer`).  Bytes are numbers below 256.  A connection is the list of pieces in which
TCP delivers what the other side sent; an empty list means that the connection was closed (or broke:
an `OSError` ends a download in the same way, with result 0).
-/
namespace Verif.Emergency.Wire

abbrev Bytes := List Nat

/-- Opcodes, `protocol.py:31-35`. -/
def opError : Nat := 0
def opGetManifest : Nat := 1
def opDownloadFile : Nat := 2
def opResponseJson : Nat := 3
def opFileStream : Nat := 4

/-- `n` in `k` bytes, most significant first (`struct` formats `!I` and `!Q`, `protocol.py:28`, `:120`,
`:125`, `:168`). -/
def bigEndian : Nat → Nat → Bytes
  | 0, _ => []
  | k + 1, n => bigEndian k (n / 256) ++ [n % 256]

/-- The number with these bytes. -/
def fromBytes (b : Bytes) : Nat := b.foldl (fun acc x => acc * 256 + x) 0

/-- `_HEADER_STRUCT.pack(opcode, length)`, `protocol.py:28`, `:100`. -/
def header (opcode length : Nat) : Bytes := opcode :: bigEndian 4 length

/-- What the JSON functions do to values of a type: is the value false in Python (`None`, `[]`, ...),
`json.dumps(...).encode()`, and `json.loads`. -/
structure Json (J : Type) where
  falsy : J → Bool
  dumps : J → Bytes
  loads : Bytes → Option J

/-- `send_json`, `protocol.py:91-101`: a false value is sent as no payload. -/
def sendJson {J : Type} (js : Json J) (opcode : Nat) (data : J) : Bytes :=
  let payload := if js.falsy data then [] else js.dumps data
  header opcode payload.length ++ payload

/-- `send_file`, `protocol.py:104-133`, of an existing file (`some`) or a missing one. -/
def sendFile : Option Bytes → Bytes
  | none => header opFileStream 8 ++ bigEndian 8 0
  | some content => header opFileStream 8 ++ bigEndian 8 content.length ++ content

/-- `socket.recv_into` for at most `n` bytes: some of what has arrived; nothing iff the connection is
closed. -/
def sockRecv (n : Nat) : List Bytes → Bytes × List Bytes
  | [] => ([], [])
  | c :: cs => (c.take n, if c.length ≤ n then cs else c.drop n :: cs)

/-- `_recv_exact`, `protocol.py:200-219`. -/
def recvExact (n : Nat) (s : List Bytes) : Option (Bytes × List Bytes) :=
  if _h : n = 0 then some ([], s)
  else
    if _h2 : (sockRecv n s).1.length = 0 then none
    else match recvExact (n - (sockRecv n s).1.length) (sockRecv n s).2 with
      | none => none
      | some (rest, s') => some ((sockRecv n s).1 ++ rest, s')
termination_by n
decreasing_by omega

/-- The answer of `recv`: a message without a payload, a JSON value, or the size of a file that
follows. -/
inductive Msg (J : Type)
  | none
  | json (j : J)
  | file (size : Nat)
deriving DecidableEq

/-- `recv`, `protocol.py:136-197`.  `if not payload_data` is true of the empty payload too. -/
def recv {J : Type} (js : Json J) (s : List Bytes) : (Nat × Msg J) × List Bytes :=
  match recvExact 5 s with
  | none => ((opError, .none), [])
  | some (h, s1) =>
    let opcode := h.headD 0
    let length := fromBytes (h.drop 1)
    if opcode = opFileStream then
      match recvExact 8 s1 with
      | none => ((opError, .none), [])
      | some (b, s2) => ((opcode, .file (fromBytes b)), s2)
    else match recvExact length s1 with
      | none => ((opError, .none), [])
      | some (p, s2) =>
        if p = [] then ((opError, .none), s2)
        else if length = 0 then ((opcode, .none), s2)
        else match js.loads p with
          | some j => ((opcode, .json j), s2)
          | none => ((opError, .none), s2)

/-- The loop of `download`, `protocol.py:309-330`: up to `CHUNK_SIZE` bytes at a time until the size is
reached or the connection is closed. -/
def recvFile (chunk size : Nat) (s : List Bytes) : Bytes :=
  if _h : size = 0 then []
  else
    if _h2 : (sockRecv (min chunk size) s).1.length = 0 then []
    else (sockRecv (min chunk size) s).1 ++
      recvFile chunk (size - (sockRecv (min chunk size) s).1.length) (sockRecv (min chunk size) s).2
termination_by size
decreasing_by omega

/-- `download`, `protocol.py:268-347`: the number returned and the file written, if one was. -/
def download {J : Type} (js : Json J) (chunk : Nat) (s : List Bytes) : Nat × Option Bytes :=
  match recv js s with
  | ((_, .file size), s') =>
    if size = 0 then (0, none)
    else
      let data := recvFile chunk size s'
      if data.length = size then (data.length, some data) else (0, some data)
  | _ => (0, none)

/-! ## Paths -/

/-- `os.path.realpath(os.path.join(base, rel))` for a directory without symbolic links: `base` and
the result are lists of components, `rel` is split at its slashes. -/
def walk (pos : List String) : List String → List String
  | [] => pos
  | c :: cs =>
    if c = "" ∨ c = "." then walk pos cs
    else if c = ".." then walk pos.dropLast cs
    else walk (pos ++ [c]) cs

/-- `_safe_path_join`, `service.py:35-69`, on a POSIX system; the relative path is given by its
components, so that an absolute one begins with an empty component and the empty string is the single
empty component. -/
def safeJoin (base rel : List String) : Option (List String) :=
  if rel.head? = some "" then none
  else if base.isPrefixOf (walk base rel) then some (walk base rel) else none

/-! ## Fetching a shard -/

/-- The files of a step directory: relative path and content. -/
abbrev Files := List (List String × Bytes)

/-- `handle_get_manifest`, `service.py:184-234`: paths (from the checkpoint root, so below the step's
name) and sizes, if the files of the step were stored by the requested process. -/
def manifest (step : String) (stored : Option Nat) (files : Files) (req : Nat) :
    List (List String × Nat) :=
  if stored = some req then files.map fun f => (step :: f.1, f.2.length) else []

/-- The directory that is moved to `p2p_restore/<step>`, `service.py:341-350`: the step's directory in
the staging area if there is one, else the whole staging area. -/
def moved (step : String) (staged : Files) : Files :=
  if staged.any fun f => f.1.head? = some step then
    (staged.filter fun f => f.1.head? = some step).map fun f => (f.1.tail, f.2)
  else staged

/-- `fetch_shard_from_peer`, `service.py:260-369`.  `downloads` are the results of the downloads of the
manifest's entries, in the order of the manifest; `completed` are the returned numbers in the order in
which the downloads completed (`as_completed`, `:327`).  The result is what is then in the restore
directory, or `none` for `False`. -/
def fetch (step : String) (stage : List String) (man : List (List String × Nat))
    (downloads : List (Nat × Option Bytes)) (completed : List Nat) : Option Files :=
  if man = [] then none
  else if man.any fun m => (safeJoin stage m.1).isNone then none
  else if (completed.zip man).any fun x => decide (x.1 = 0) && decide (0 < x.2.2) then none
  else some (moved step ((man.zip downloads).filterMap fun x => x.2.2.map fun b => (x.1.1, b)))

end Verif.Emergency.Wire
