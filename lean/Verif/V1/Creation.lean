/-!
# Directories that are created in the background (`PathAwaitingCreation`)

Models `_create_paths` and `PathAwaitingCreation`
(checkpoint/orbax/checkpoint/experimental/v1/_src/path/async_utils.py:38-252).

Every process has one `PathAwaitingCreation` and any number of coroutines that
call `await_creation`.  A step is what happens between two suspension points of a
coroutine, one `mkdir`, or the passing of the barrier; steps happen in any order.

Simplifications, for the whole file: `await self._awaitable` may raise at any of
its suspension points (an error of the file system, a timeout of the barrier, or
the cancellation of the coroutine that runs it); the coroutines of one process
share an event loop; the subdirectories are not nested, as in the code.
-/

namespace Verif.V1.Creation

/-- Where a coroutine is in `await_creation`. -/
inductive Task where
  /-- Not called yet, or waiting for the lock. -/
  | waiting
  /-- Inside `async with self._lock`, before the test. -/
  | holding
  /-- At `await self._awaitable`. -/
  | creating
  /-- Returned the path. -/
  | returned
  /-- Raised. -/
  | raised
  deriving DecidableEq

/-- Where the coroutine `_create_paths` of a process is. -/
inductive Run where
  | notStarted
  /-- The directories still to be made (primary host). -/
  | making (left : List String)
  | atBarrier
  | passed
  | failed
  deriving DecidableEq

/-- One process. -/
structure Proc where
  tasks : Nat → Task
  lock : Option Nat
  completed : Bool
  run : Run

/-- Everything: the processes, and the directories made, the last first. -/
structure State where
  procs : Nat → Proc
  made : List String

/-- What a save is given: the number of processes, the primary one, the temporary
directory and the subdirectories (async_utils.py:38-46). -/
structure Config where
  n : Nat
  primary : Nat
  root : String
  subs : List String

/-- Before anything is awaited (async_utils.py:160-168). -/
def initial : State :=
  ⟨fun _ => ⟨fun _ => .waiting, none, false, .notStarted⟩, []⟩

def setProc (s : State) (p : Nat) (q : Proc) : State :=
  { s with procs := fun i => if i = p then q else s.procs i }

def setTask (q : Proc) (t : Nat) (x : Task) : Proc :=
  { q with tasks := fun i => if i = t then x else q.tasks i }

/-- Arrived at the barrier. -/
def arrived : Run → Bool
  | .atBarrier => true
  | .passed => true
  | _ => false

/-- In progress: it can fail. -/
def inProgress : Run → Bool
  | .making _ => true
  | .atBarrier => true
  | _ => false

/-- One step. -/
inductive Step (c : Config) : State → State → Prop where
  /-- The lock is taken (async_utils.py:207). -/
  | acquire (s : State) (p t : Nat) (hp : p < c.n) (hl : (s.procs p).lock = none)
      (ht : (s.procs p).tasks t = .waiting) :
      Step c s (setProc s p { setTask (s.procs p) t .holding with lock := some t })
  /-- `if self._creation_completed: return self._path` (async_utils.py:208-209);
  the lock is released. -/
  | skip (s : State) (p t : Nat) (hp : p < c.n) (ht : (s.procs p).tasks t = .holding)
      (hc : (s.procs p).completed = true) :
      Step c s (setProc s p { setTask (s.procs p) t .returned with lock := none })
  /-- `self._creation_completed = True`, and `_create_paths` starts
  (async_utils.py:210-211, 53-61): the primary host makes the directories, the
  others go to the barrier. -/
  | start (s : State) (p t : Nat) (hp : p < c.n) (ht : (s.procs p).tasks t = .holding)
      (hc : (s.procs p).completed = false) :
      Step c s (setProc s p { setTask (s.procs p) t .creating with
        completed := true
        run := if p = c.primary then .making (c.root :: c.subs) else .atBarrier })
  /-- `await tmp_path.create()` (async_utils.py:55). -/
  | mkroot (s : State) (p : Nat) (hp : p < c.n) (left : List String)
      (hr : (s.procs p).run = .making left) (hroot : c.root ∈ left) :
      Step c s
        { setProc s p { (s.procs p) with run := .making (left.erase c.root) } with
          made := c.root :: s.made }
  /-- `await asyncio.gather(*subdir_ops)` (async_utils.py:56-61): in any order, once
  the temporary directory is there. -/
  | mksub (s : State) (p : Nat) (hp : p < c.n) (left : List String) (d : String)
      (hr : (s.procs p).run = .making left) (hroot : c.root ∉ left) (hd : d ∈ left) :
      Step c s
        { setProc s p { (s.procs p) with run := .making (left.erase d) } with
          made := d :: s.made }
  /-- The primary host reaches the barrier (async_utils.py:84-92). -/
  | arrive (s : State) (p : Nat) (hp : p < c.n) (hr : (s.procs p).run = .making []) :
      Step c s (setProc s p { (s.procs p) with run := .atBarrier })
  /-- The barrier lets a process pass when all have arrived. -/
  | pass (s : State) (p : Nat) (hp : p < c.n) (hr : (s.procs p).run = .atBarrier)
      (hall : ∀ q < c.n, arrived (s.procs q).run = true) :
      Step c s (setProc s p { (s.procs p) with run := .passed })
  /-- `create` returns (async_utils.py:214). -/
  | finish (s : State) (p t : Nat) (hp : p < c.n) (ht : (s.procs p).tasks t = .creating)
      (hr : (s.procs p).run = .passed) :
      Step c s (setProc s p { setTask (s.procs p) t .returned with lock := none })
  /-- `_create_paths` raises. -/
  | fail (s : State) (p t : Nat) (hp : p < c.n) (ht : (s.procs p).tasks t = .creating)
      (hr : inProgress (s.procs p).run = true) :
      Step c s (setProc s p { setTask (s.procs p) t .raised with lock := none, run := .failed })

/-- The states that can be reached. -/
inductive Reach (c : Config) : State → Prop where
  | init : Reach c initial
  | step (s s' : State) (h : Reach c s) (hs : Step c s s') : Reach c s'

end Verif.V1.Creation
