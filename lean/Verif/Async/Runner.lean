/-
Model of `AsyncRunner`, the event loop in a thread of its own in which the V1
API runs every background save and load.

Files modelled (under /repo/checkpoint/orbax/checkpoint):
  _src/asyncio_utils.py

The asyncio machinery it stands on (`run_coroutine_threadsafe`,
`call_soon_threadsafe`, `Task.__step`, `gather`, `all_tasks`, `loop.stop`) is
modelled at the level of callbacks in the loop's queue.

Core Lean only.
-/

namespace Verif.Runner

/-- How a coroutine ends: it returns, raises, or ends cancelled. -/
inductive Outcome where
  | value (v : Nat)
  | error (e : Nat)
  | cancelled
  deriving DecidableEq, Repr

/-- A callback in the queue of the event loop.
asyncio: `create k` is the callback of `run_coroutine_threadsafe` that makes the
task; `step k` is `Task.__step`; `notify k` stands for the done callbacks of the
task (the one that resolves the concurrent future and the one of `gather`, which
are run one after the other); the next four are the same for the task of
`_shutdown_tasks` (asyncio_utils.py:188-212); `stop` is `loop.stop`
(asyncio_utils.py:222, 227). -/
inductive Handle where
  | create (k : Nat)
  | step (k : Nat)
  | notify (k : Nat)
  | createShutdown
  | stepShutdown
  | resumeShutdown
  | notifyShutdown
  | stop
  deriving DecidableEq, Repr

/-- How far `_shutdown_tasks` is (asyncio_utils.py:188-212). -/
inductive Phase where
  | idle
  | queued
  | created
  | gathering (rest : List Nat)
  | resumed
  | finishing
  | finished
  deriving DecidableEq, Repr

/-- How far the thread is that called `shutdown(wait=True)`
(asyncio_utils.py:219-224). -/
inductive Caller where
  | out
  | waiting
  | joining
  | back
  deriving DecidableEq, Repr

/-- What can be seen from outside. -/
inductive Obs where
  /-- `run_coroutine` returned a future -/
  | accepted (k : Nat)
  /-- `run_coroutine` raised RuntimeError -/
  | refused (k : Nat)
  /-- the coroutine ran for a while -/
  | ran (k : Nat)
  /-- the coroutine ended -/
  | ended (k : Nat) (o : Outcome)
  /-- the future of the coroutine has its outcome -/
  | resolved (k : Nat) (o : Outcome)
  /-- `shutdown(wait, cancel)` was called -/
  | asked (wait cancel : Bool)
  /-- a call of `shutdown` returned -/
  | returned
  deriving DecidableEq, Repr

/-- The runner.  `batch` are the callbacks of the current iteration of the loop
that have not run yet, `ready` those for the next one; `live` is
`asyncio.all_tasks` without the task of `_shutdown_tasks`; `waiting` are the
live tasks suspended on something that has not happened; `result` is the outcome
kept in a finished task; `future` the one in its future; `cancel` was given to the call of
`shutdown` that counts (the first); `used` are the names
given to coroutines so far; `log` is what was seen, oldest first. -/
structure State where
  closed : Bool := false
  batch : List Handle := []
  ready : List Handle := []
  stopping : Bool := false
  exited : Bool := false
  cancel : Bool := false
  live : List Nat := []
  waiting : List Nat := []
  result : Nat → Option Outcome := fun _ => none
  future : Nat → Option Outcome := fun _ => none
  used : List Nat := []
  phase : Phase := .idle
  caller : Caller := .out
  log : List Obs := []

/-- asyncio_utils.py:146-153: `__init__`.  The constructor waits until the loop
runs, so that the runner starts with an empty queue. -/
def State.new : State := {}

/-- What a task does until it next gives control back: it starts tasks of its
own, and then suspends, asks to go on in the next iteration, or ends. -/
inductive Act where
  | suspend (children : List Nat)
  | again (children : List Nat)
  | finish (children : List Nat) (o : Outcome)
  deriving DecidableEq, Repr

/-- The tasks a task starts in one go. -/
def Act.children : Act → List Nat
  | .suspend cs | .again cs | .finish cs _ => cs

/-- One thing that happens. -/
inductive Event where
  /-- a thread calls `run_coroutine` with a new coroutine -/
  | submit (k : Nat)
  /-- a thread calls `shutdown` -/
  | shutdown (wait cancel : Bool)
  /-- the thread in `shutdown(wait=True)` goes on -/
  | goOn
  /-- what a suspended task waits for happens -/
  | wake (k : Nat)
  /-- the loop begins its next iteration, or leaves -/
  | iterate
  /-- the loop runs the next callback; `a` says what a task does -/
  | run (a : Act)
  deriving DecidableEq, Repr

/-- asyncio_utils.py:159-172: `run_coroutine`. -/
def submit (s : State) (k : Nat) : State :=
  if s.closed then { s with log := s.log ++ [.refused k] }
  else { s with
    ready := s.ready ++ [.create k]
    used := k :: s.used
    log := s.log ++ [.accepted k] }

/-- asyncio_utils.py:174-228: `shutdown`, up to the point where it waits for
`_shutdown_tasks`.  Without `wait` it also asks the loop to stop, and returns. -/
def shutdown (s : State) (wait cancel : Bool) : State :=
  if s.closed then { s with log := s.log ++ [.asked wait cancel, .returned] }
  else if wait then { s with
    closed := true
    ready := s.ready ++ [.createShutdown]
    phase := .queued
    caller := .waiting
    cancel := cancel
    log := s.log ++ [.asked wait cancel] }
  else { s with
    closed := true
    ready := s.ready ++ [.createShutdown, .stop]
    phase := .queued
    cancel := cancel
    log := s.log ++ [.asked wait cancel, .returned] }

/-- asyncio_utils.py:219-224: what `shutdown(wait=True)` does once
`_shutdown_tasks` is over, and once the thread of the loop is. -/
def goOn (s : State) : Option State :=
  match s.caller with
  | .waiting =>
    if s.phase = .finished then
      some { s with ready := s.ready ++ [.stop], caller := .joining }
    else none
  | .joining =>
    if s.exited then some { s with caller := .back, log := s.log ++ [.returned] }
    else none
  | _ => none

/-- asyncio: a suspended task is put into the queue when what it waits for
happens. -/
def wake (s : State) (k : Nat) : Option State :=
  if s.exited then none
  else if k ∈ s.waiting then
    some { s with waiting := s.waiting.erase k, ready := s.ready ++ [.step k] }
  else none

/-- asyncio: `run_forever` (asyncio_utils.py:155-159): after each iteration the
loop leaves if it was asked to stop, otherwise it takes the callbacks that are
ready now. -/
def iterate (s : State) : Option State :=
  if s.exited then none
  else if s.batch ≠ [] then none
  else if s.stopping then some { s with exited := true }
  else some { s with batch := s.ready, ready := [] }

/-- asyncio: `Task.__step`. -/
def stepTask (s : State) (k : Nat) (a : Act) : State :=
  let s1 : State := { s with
    live := s.live ++ a.children
    ready := s.ready ++ a.children.map Handle.step
    used := a.children ++ s.used
    log := s.log ++ [.ran k] }
  match a with
  | .suspend _ => { s1 with waiting := k :: s1.waiting }
  | .again _ => { s1 with ready := s1.ready ++ [.step k] }
  | .finish _ o => { s1 with
      live := s1.live.erase k
      result := fun j => if j = k then some o else s1.result j
      ready := s1.ready ++ [.notify k]
      log := s1.log ++ [.ended k o] }

/-- asyncio: the done callbacks of a task: the outcome is copied into the future
and, if `gather` waits for this task, one task less is waited for. -/
def notify (s : State) (k : Nat) : State :=
  let s1 : State := { s with
    future := fun j => if j = k then s.result k else s.future j
    log := s.log ++ (match s.result k with
      | some o => [.resolved k o]
      | none => []) }
  match s.phase with
  | .gathering rest =>
    if k ∈ rest then
      if rest.erase k = [] then
        { s1 with phase := .resumed, ready := s1.ready ++ [.resumeShutdown] }
      else { s1 with phase := .gathering (rest.erase k) }
    else s1
  | _ => s1

/-- asyncio_utils.py:188-212: the first step of `_shutdown_tasks`: all tasks of
the loop are looked up, cancelled if asked (which puts the suspended ones into
the queue) and waited for. -/
def stepShutdown (s : State) (cancel : Bool) : State :=
  if s.live = [] then
    { s with phase := .finishing, ready := s.ready ++ [.notifyShutdown] }
  else if cancel then
    { s with
      phase := .gathering s.live
      waiting := []
      ready := s.ready ++ s.waiting.map Handle.step }
  else { s with phase := .gathering s.live }

/-- The new tasks of a step have new names. -/
def freshChildren (s : State) : List Nat → Bool
  | [] => true
  | c :: cs => !s.used.contains c && !cs.contains c && freshChildren s cs

/-- asyncio: one callback is run. -/
def runHandle (s : State) (h : Handle) (a : Act) : Option State :=
  match h with
  | .create k =>
    some { s with live := s.live ++ [k], ready := s.ready ++ [.step k] }
  | .step k => if freshChildren s a.children then some (stepTask s k a) else none
  | .notify k => some (notify s k)
  | .createShutdown =>
    some { s with phase := .created, ready := s.ready ++ [.stepShutdown] }
  | .stepShutdown => some (stepShutdown s s.cancel)
  | .resumeShutdown =>
    some { s with phase := .finishing, ready := s.ready ++ [.notifyShutdown] }
  | .notifyShutdown => some { s with phase := .finished }
  | .stop => some { s with stopping := true }

/-- One event. -/
def step (s : State) : Event → Option State
  | .submit k => if k ∈ s.used then none else some (submit s k)
  | .shutdown w c => some (shutdown s w c)
  | .goOn => goOn s
  | .wake k => wake s k
  | .iterate => iterate s
  | .run a =>
    if s.exited then none
    else match s.batch with
      | [] => none
      | h :: rest => runHandle { s with batch := rest } h a

/-- A history. -/
def exec (s : State) : List Event → Option State
  | [] => some s
  | e :: es =>
    match step s e with
    | none => none
    | some s' => exec s' es

end Verif.Runner
