/-
Model of `BackgroundThreadRunner`, which is behind the `AsyncResponse` that the V1
functions `save_async` and `load_async` and the training checkpointer return.

Files modelled (under /repo/checkpoint/orbax/checkpoint):
  experimental/v1/_src/synchronization/thread_utils.py
  experimental/v1/_src/synchronization/types.py

`AsyncRunner.shutdown` appears as one call that waits until the thread of the
loop is free; see Verif/Async/Runner.lean for what happens inside.

Core Lean only.
-/
import Verif.Async.Runner

namespace Verif.Response

open Verif.Runner (Outcome)

/-- What a call of `result` can raise. -/
inductive Err where
  | operation (e : Nat)
  | cancelled
  | timeout
  /-- AttributeError: 'NoneType' object has no attribute 'shutdown' -/
  | attribute
  deriving DecidableEq, Repr

/-- Where a thread is in `result` (thread_utils.py:39-44). -/
inductive Pc where
  | out
  /-- line 40, with or without a timeout -/
  | waiting (timed : Bool)
  /-- before line 41, `if self._runner` -/
  | test (v : Nat)
  /-- before line 42, `self._runner.shutdown()` -/
  | call (v : Nat)
  /-- inside `shutdown`, waiting for the thread of the loop -/
  | inside (v : Nat)
  /-- before line 43, `self._runner = None` -/
  | clear (v : Nat)
  deriving DecidableEq, Repr

/-- What can be seen from outside. -/
inductive Obs where
  /-- the background operation ended -/
  | finished (o : Outcome)
  /-- a thread called `result` -/
  | began (i : Nat)
  | returned (i v : Nat)
  | raised (i : Nat) (e : Err)
  /-- a callback was given to `on_complete` -/
  | registered (c : Nat)
  /-- a callback was called -/
  | called (c v : Nat)
  deriving DecidableEq, Repr

/-- The runner of one operation.  `future` is `_future`, `runner` says whether
`_runner` is set, `closed` is the flag of the `AsyncRunner`, `down` says that its
thread has ended.  `callbacks` were registered and wait for the operation; those
marked `true` call `result` themselves.  `queue` are the callbacks that the thread
of the loop has yet to call, `stuck` says that it waits for itself. -/
structure State where
  future : Option Outcome := none
  runner : Bool := true
  closed : Bool := false
  down : Bool := false
  callbacks : List (Nat × Bool) := []
  queue : List (Nat × Bool) := []
  stuck : Bool := false
  pc : Nat → Pc := fun _ => .out
  log : List Obs := []

/-- thread_utils.py:32-37: `__init__`. -/
def State.new : State := {}

/-- One thing that happens. -/
inductive Event where
  /-- the operation ends -/
  | finish (o : Outcome)
  /-- the thread of the loop calls the next callback -/
  | callback
  /-- a thread calls `on_complete` -/
  | register (c : Nat) (nested : Bool)
  /-- a thread calls `result` -/
  | begin (i : Nat) (timed : Bool)
  /-- a thread in `result` goes on -/
  | advance (i : Nat)
  /-- the time of a thread in `result` is up -/
  | expire (i : Nat)
  deriving DecidableEq, Repr

/-- Thread `i` is at `p` now. -/
def State.at (s : State) (i : Nat) (p : Pc) : State :=
  { s with pc := fun j => if j = i then p else s.pc j }

/-- A call of thread `i` ends with `x`. -/
def State.leave (s : State) (i : Nat) (x : Obs) : State :=
  { s.at i .out with log := s.log ++ [x] }

/-- concurrent.futures: the future gets its outcome, and the thread of the loop
turns to the callbacks. -/
def finish (s : State) (o : Outcome) : Option State :=
  match s.future with
  | some _ => none
  | none => some { s with
      future := some o
      queue := s.callbacks
      callbacks := []
      log := s.log ++ [.finished o] }

/-- thread_utils.py:46-52: the registered function, called in the thread of the
loop.  If the operation failed, `fut.result()` raises and the user's callback is
not called.  A callback that calls `result` gets the value at once, and goes on to
line 41: in the thread of the loop `shutdown` waits for that very thread, unless
another thread is shutting the runner down already. -/
def callback (s : State) : Option State :=
  if s.stuck then none
  else match s.queue with
    | [] => none
    | (c, nested) :: rest =>
      match s.future with
      | some (.value v) =>
        let s1 : State := { s with queue := rest, log := s.log ++ [.called c v] }
        if nested = false then some s1
        else if s.runner = false then some s1
        else if s.closed then some { s1 with runner := false }
        else some { s1 with closed := true, stuck := true }
      | _ => some { s with queue := rest }

/-- thread_utils.py:46-52 and concurrent.futures `add_done_callback`: a callback
that comes after the end is called at once, in the thread that registers it. -/
def register (s : State) (c : Nat) (nested : Bool) : State :=
  let s1 : State := { s with log := s.log ++ [.registered c] }
  match s.future with
  | none => { s1 with callbacks := s.callbacks ++ [(c, nested)] }
  | some (.value v) => { s1 with log := s1.log ++ [.called c v] }
  | some _ => s1

/-- thread_utils.py:39-44: `result`. -/
def advance (s : State) (i : Nat) : Option State :=
  match s.pc i with
  | .out => none
  | .waiting _ =>
    match s.future with
    | none => none
    | some (.value v) => some (s.at i (.test v))
    | some (.error e) => some (s.leave i (.raised i (.operation e)))
    | some .cancelled => some (s.leave i (.raised i .cancelled))
  | .test v =>
    if s.runner then some (s.at i (.call v)) else some (s.leave i (.returned i v))
  | .call v =>
    if s.runner = false then some (s.leave i (.raised i .attribute))
    else if s.closed then some (s.at i (.clear v))
    else some ({ s with closed := true }.at i (.inside v))
  | .inside v =>
    if s.queue = [] ∧ s.stuck = false then
      some ({ s with down := true }.at i (.clear v))
    else none
  | .clear v => some ({ s with runner := false }.leave i (.returned i v))

/-- thread_utils.py:40: `self._future.result(timeout=timeout)` raises
TimeoutError if the operation has not ended in time. -/
def expire (s : State) (i : Nat) : Option State :=
  match s.pc i with
  | .waiting true =>
    if s.future = none then some (s.leave i (.raised i .timeout)) else none
  | _ => none

/-- One event. -/
def step (s : State) : Event → Option State
  | .finish o => finish s o
  | .callback => callback s
  | .register c n => some (register s c n)
  | .begin i t =>
    match s.pc i with
    | .out => some { s.at i (.waiting t) with log := s.log ++ [.began i] }
    | _ => none
  | .advance i => advance s i
  | .expire i => expire s i

/-- A history. -/
def exec (s : State) : List Event → Option State
  | [] => some s
  | e :: es =>
    match step s e with
    | none => none
    | some s' => exec s' es

end Verif.Response
