/-!
# Model of deleting a directory with several threads

Models `_ParallelDirectoryDeleter`, `/repo/checkpoint/orbax/checkpoint/_src/path/deleter.py:72-173`, and the
choice between it and a plain `rmtree` in `StandardCheckpointDeleter` (176-236, 361-372).

The file system is a list of paths with what is there.  One call of `delete` is a transition system: the
scanning thread, the scheduler (the thread that called `delete`), and the threads of the pool take steps in any
order.  Paths are lists of names.

Not modelled: a chain of links, links among the ancestors of the directory, other programs that change the
directory meanwhile, and two calls of `delete` at the same time on one deleter (they would share the queue and the
flags; the managers call it from one thread).
-/

namespace Verif.Deleter.Parallel

/-- A path, as its names. -/
abbrev Path := List String

/-- What is at a path: a file, a symbolic link and where it points, a directory. -/
inductive Kind | file | link (target : Path) | dir
deriving DecidableEq, Repr

/-- A file system. -/
abbrev FS := List (Path × Kind)

/-- What is at a path. -/
def kindAt (fs : FS) (p : Path) : Option Kind := (fs.find? fun e => e.1 == p).map (·.2)

/-- `entry.is_dir(follow_symlinks=False)` (deleter.py:104): a link to a directory is no directory. -/
def isDir : Kind → Bool
  | .dir => true
  | .file => false
  | .link _ => false

/-- The entries that `os.scandir(p)` gives (deleter.py:94-96). -/
def entries (fs : FS) (p : Path) : FS :=
  fs.filter fun e => p.isPrefixOf e.1 && e.1.length == p.length + 1

/-- The directory that is read when the path is given to `os.scandir`: a link at the path itself is followed
(deleter.py:95, 158-161; `os.scandir` follows links in its argument). -/
def home (fs : FS) (root : Path) : Path :=
  match kindAt fs root with
  | some (.link t) => t
  | _ => root

/-- What goes wrong, and the number of threads. -/
structure Env where
  /-- entries that cannot be removed (no permission, busy, …) -/
  deny : Path → Bool
  /-- directories whose reading raises an OSError (deleter.py:97) -/
  noscan : Path → Bool
  /-- directories whose scan raises something that is not caught: `is_dir` raises (deleter.py:104, outside of the
  `try`), or the recursion is too deep -/
  fragile : Path → Bool
  /-- `num_threads` -/
  threads : Nat

/-- The thread that called `delete`: waiting for a node (deleter.py:137-139); after the timeout, about to look at
`scan_done` (142), at the counter (143), at the queue (144); leaving the `with` of the pool, which waits for the
submitted nodes (134-136); `scan_thread.join()` (170); `path.rmtree()` (173); returned; raised. -/
inductive Phase | waiting | sawEmpty | sawDone | sawIdle | closing | joining | removing | returned | raised
deriving DecidableEq, Repr

/-- A submitted node: whether its thread has started, and the files still to be removed. -/
structure Job where
  started : Bool
  files : List Path
deriving DecidableEq, Repr

/-- State of one call. -/
structure State where
  fs : FS
  /-- directories on which `_dfs_scan` has still to be called, in order (deleter.py:112-113) -/
  stack : List Path
  /-- the scanning thread has not been ended by an exception -/
  alive : Bool
  /-- `_scan_done` -/
  scanDone : Bool
  /-- `_ready_queue` -/
  queue : List (List Path)
  /-- submitted nodes that are not finished -/
  pool : List Job
  /-- `_active_counter[0]` -/
  active : Nat
  phase : Phase

/-- The beginning of `delete` (deleter.py:154-165). -/
def init (fs : FS) (root : Path) : State where
  fs := fs
  stack := [home fs root]
  alive := true
  scanDone := false
  queue := []
  pool := []
  active := 0
  phase := .waiting

/-- `os.unlink(f)` (deleter.py:123-127): errors are logged only. -/
def unlink (env : Env) (f : Path) (fs : FS) : FS :=
  if env.deny f then fs else fs.filter fun e => !(e.1 == f)

/-- The entries at or below a path. -/
def below (p : Path) (fs : FS) : FS := fs.filter fun e => p.isPrefixOf e.1

/-- All entries but those at or below a path. -/
def without (p : Path) (fs : FS) : FS := fs.filter fun e => !p.isPrefixOf e.1

/-- `shutil.rmtree` cannot remove this entry: removing it fails, or it is a directory that cannot be read. -/
def blocked (env : Env) (e : Path × Kind) : Bool := env.deny e.1 || (isDir e.2 && env.noscan e.1)

/-- What `path.rmtree()` may do (`shutil.rmtree`, which refuses links and what is no directory): it removes
everything at and below the path; if something cannot be removed it raises, and some of the rest below the path may
be gone. -/
inductive Rmtree (env : Env) (root : Path) (fs : FS) : FS → Phase → Prop
  | refused (h : kindAt fs root ≠ some .dir) : Rmtree env root fs fs .raised
  | removed (h : kindAt fs root = some .dir) (hb : ∀ e ∈ below root fs, blocked env e = false) :
    Rmtree env root fs (without root fs) .returned
  | stopped (fs' : FS) (h : kindAt fs root = some .dir) (hb : ∃ e ∈ below root fs, blocked env e = true)
    (hs : fs'.Sublist fs) (ho : without root fs' = without root fs) : Rmtree env root fs fs' .raised

/-- The number of threads at work. -/
def running (pool : List Job) : Nat := (pool.filter (·.started)).length

/-- One step of one thread. -/
inductive Step (env : Env) (root : Path) : State → State → Prop
  /-- the scanning thread reads a directory and puts its files in the queue (deleter.py:92-113) -/
  | scan {s : State} {p : Path} {st : List Path} (ha : s.alive = true) (hs : s.stack = p :: st)
      (hk : kindAt s.fs p = some .dir) (hn : env.noscan p = false) (hf : env.fragile p = false) :
      Step env root s { s with
        stack := ((entries s.fs p).filter fun e => isDir e.2).map (·.1) ++ st
        queue := s.queue ++ [((entries s.fs p).filter fun e => !isDir e.2).map (·.1)] }
  /-- reading fails with an OSError: a warning (deleter.py:97-99) -/
  | skip {s : State} {p : Path} {st : List Path} (ha : s.alive = true) (hs : s.stack = p :: st)
      (hk : kindAt s.fs p ≠ some .dir ∨ env.noscan p = true) : Step env root s { s with stack := st }
  /-- any other exception ends the scanning thread (deleter.py:160-162) -/
  | die {s : State} {p : Path} {st : List Path} (ha : s.alive = true) (hs : s.stack = p :: st)
      (hk : kindAt s.fs p = some .dir) (hn : env.noscan p = false) (hf : env.fragile p = true) :
      Step env root s { s with alive := false }
  /-- `self._scan_done.set()` (deleter.py:162) -/
  | done {s : State} (ha : s.alive = true) (hs : s.stack = []) : Step env root s { s with scanDone := true }
  /-- the scheduler takes a node and submits it (deleter.py:139, 149) -/
  | take {s : State} {n : List Path} {q : List (List Path)} (hp : s.phase = .waiting) (hq : s.queue = n :: q) :
      Step env root s { s with queue := q, pool := s.pool ++ [⟨false, n⟩] }
  /-- a thread of the pool begins with a node (deleter.py:117-118) -/
  | start {s : State} {l r : List Job} {n : List Path} (hp : s.pool = l ++ ⟨false, n⟩ :: r)
      (ht : running s.pool < env.threads) :
      Step env root s { s with pool := l ++ ⟨true, n⟩ :: r, active := s.active + 1 }
  /-- a thread of the pool removes a file (deleter.py:122-127) -/
  | unlink {s : State} {l r : List Job} {f : Path} {n : List Path} (hp : s.pool = l ++ ⟨true, f :: n⟩ :: r) :
      Step env root s { s with pool := l ++ ⟨true, n⟩ :: r, fs := unlink env f s.fs }
  /-- a thread of the pool has finished a node (deleter.py:128-130) -/
  | finish {s : State} {l r : List Job} (hp : s.pool = l ++ ⟨true, []⟩ :: r) :
      Step env root s { s with pool := l ++ r, active := s.active - 1 }
  /-- the queue was empty for a while (deleter.py:139-140) -/
  | timeout {s : State} (hp : s.phase = .waiting) (hq : s.queue = []) : Step env root s { s with phase := .sawEmpty }
  /-- `self._scan_done.is_set()` (deleter.py:142) -/
  | seeDone {s : State} (hp : s.phase = .sawEmpty) :
      Step env root s { s with phase := if s.scanDone then .sawDone else .waiting }
  /-- `self._active_counter[0] == 0` (deleter.py:143) -/
  | seeIdle {s : State} (hp : s.phase = .sawDone) :
      Step env root s { s with phase := if s.active = 0 then .sawIdle else .waiting }
  /-- `self._ready_queue.empty()` (deleter.py:144) -/
  | seeQueue {s : State} (hp : s.phase = .sawIdle) :
      Step env root s { s with phase := if s.queue.isEmpty then .closing else .waiting }
  /-- the end of the `with` waits for all submitted nodes (deleter.py:134-136) -/
  | close {s : State} (hp : s.phase = .closing) (hq : s.pool = []) : Step env root s { s with phase := .joining }
  /-- `scan_thread.join()` (deleter.py:170) -/
  | join {s : State} (hp : s.phase = .joining) (hd : s.scanDone = true ∨ s.alive = false) :
      Step env root s { s with phase := .removing }
  /-- `path.rmtree()` (deleter.py:173) -/
  | rmtree {s : State} {fs' : FS} {ph : Phase} (hp : s.phase = .removing) (h : Rmtree env root s.fs fs' ph) :
      Step env root s { s with fs := fs', phase := ph }

/-- Any number of steps. -/
inductive Steps (env : Env) (root : Path) : State → State → Prop
  | refl (s : State) : Steps env root s s
  | tail {s t u : State} (h : Steps env root s t) (h' : Step env root t u) : Steps env root s u

/-- `_is_local_path` (deleter.py:176-181): `scheme` is what `urlparse` finds. -/
def isLocal (gcs : Bool) (scheme : String) : Bool :=
  if gcs then false else scheme.isEmpty || decide (scheme.length ≤ 1)

/-- The number of threads, if any, of the parallel deleter that the constructor creates (deleter.py:213-223). -/
def parallelThreads (given : Option Nat) (gcs : Bool) (scheme : String) (cpus : Nat) : Option Nat :=
  let n := match given with
    | some n => n
    | none => if isLocal gcs scheme then min 16 (cpus / 2) else 1
  if n > 1 && isLocal gcs scheme then some n else none

/-- What `_delete_step_permanently` (deleter.py:361-372) may leave, and whether it returns or raises.  `env.threads` is
replaced by the number of threads of the deleter.  Deleting in Google Cloud Storage is modelled elsewhere
(`Verif.Path`). -/
inductive Permanently (env : Env) (threads : Option Nat) (root : Path) (fs : FS) : FS → Phase → Prop
  | parallel {n : Nat} {s : State} (hn : threads = some n)
      (h : Steps { env with threads := n } root (init fs root) s) (hp : s.phase = .returned ∨ s.phase = .raised) :
      Permanently env threads root fs s.fs s.phase
  | plain {fs' : FS} {ph : Phase} (hn : threads = none) (h : Rmtree env root fs fs' ph) :
      Permanently env threads root fs fs' ph

end Verif.Deleter.Parallel
