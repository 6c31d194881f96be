/-!
# Model of asynchronous saving

Models `_AsyncManager` and the orchestration part of `AsyncCheckpointer`
(`/repo/checkpoint/orbax/checkpoint/_src/checkpointers/async_checkpointer.py:185-356, 510-660`) as a
transition system: one user thread calling `save`, `wait_until_finished`, `check_for_errors` and `cancel`,
and background threads, one per started save.  A background thread waits for its commit futures one by
one, runs the commit callback and then passes the completion barrier; any of these may raise.
Simplifications: one user thread; the metadata store's own `wait_until_finished` is not modelled; `cancel`
only sets the flag (whether the futures then raise is left to the environment).
-/

namespace Verif.Async

/-- Where a background thread is, `_background_wait_for_commit_futures`, async_checkpointer.py:60-173:
waiting for futures (`n` to go), about to run the commit callback, at the barrier after it. -/
inductive Pc | futures (n : Nat) | commit | barrier
deriving DecidableEq, Repr

/-- A background thread that has not finished. -/
structure Thr where
  id : Nat
  pc : Pc
deriving DecidableEq, Repr

/-- State of the async manager and what can be observed of it. -/
structure State where
  /-- background threads that have not finished -/
  threads : List Thr
  /-- `self._thread`: the save it belongs to -/
  cur : Option Nat
  /-- `self._exception`: the save whose background thread raised it -/
  exc : Option Nat
  /-- `self._cancel_requested` -/
  cancelReq : Bool
  /-- number of saves started -/
  next : Nat
  /-- saves whose commit callback has run, in order -/
  committed : List Nat
  /-- saves whose background exception was raised to the user, in order -/
  reported : List Nat
deriving DecidableEq, Repr

/-- What happens to a step of a background thread. -/
inductive Outcome | ok | raise | cancelled
deriving DecidableEq, Repr

/-- Events.  `save none` is a save whose synchronous part raises (for instance because the destination
exists); `save (some k)` one that returns `k` commit futures. -/
inductive Ev
  | save (sync : Option Nat)
  | wait
  | check
  | cancel
  | bg (i : Nat) (o : Outcome)
deriving DecidableEq, Repr

/-- The constructor, async_checkpointer.py:188-220. -/
def init : State := ⟨[], none, none, false, 0, [], []⟩

/-- `check_for_errors`, async_checkpointer.py:287-298; the flag says that it raised. -/
def doCheck (st : State) : State × Bool :=
  match st.exc with
  | none => (st, false)
  | some i => if st.cancelReq then ({ st with exc := none, cancelReq := false }, false)
              else ({ st with exc := none, reported := st.reported ++ [i] }, true)

/-- Is the background thread of save `i` alive? -/
def alive (st : State) (i : Nat) : Bool := st.threads.any fun t => t.id == i

/-- `wait_until_finished`, async_checkpointer.py:300-331; `none`: blocked in `join`. -/
def doWait (st : State) : Option (State × Bool) :=
  match st.cur with
  | some i => if alive st i then none else some (doCheck { st with cur := none })
  | none => some (doCheck st)

/-- `start_async_commit`, async_checkpointer.py:267-285. -/
def start (st : State) (k : Nat) : State :=
  { st with cancelReq := false, threads := st.threads ++ [⟨st.next, .futures k⟩], cur := some st.next,
            next := st.next + 1 }

/-- `AsyncCheckpointer.save`, async_checkpointer.py:562-641. -/
def doSave (st : State) (sync : Option Nat) : Option State :=
  match doWait st with
  | none => none
  | some (st', true) => some st'
  | some (st', false) => match sync with
    | none => some st'
    | some k => some (start st' k)

/-- `cancel`, async_checkpointer.py:333-356. -/
def doCancel (st : State) : State :=
  match st.cur with
  | some _ => { st with cancelReq := true }
  | none => st

/-- The background thread of save `i` finishes. -/
def finish (st : State) (i : Nat) : State := { st with threads := st.threads.filter fun t => t.id != i }

/-- `_thread_func`'s exception handler, async_checkpointer.py:248-265. -/
def onRaise (st : State) (i : Nat) (cancelledError : Bool) : State :=
  if cancelledError || st.cancelReq then finish st i else { finish st i with exc := some i }

/-- Set the program counter of a background thread. -/
def setPc (st : State) (i : Nat) (pc : Pc) : State :=
  { st with threads := st.threads.map fun t => if t.id == i then ⟨i, pc⟩ else t }

/-- A step of a background thread, async_checkpointer.py:60-173, 231-265. -/
def doBg (st : State) (i : Nat) (o : Outcome) : Option State :=
  match st.threads.find? fun t => t.id == i with
  | none => none
  | some t => match o with
    | .raise => some (onRaise st i false)
    | .cancelled => some (onRaise st i true)
    | .ok => match t.pc with
      | .futures (n+1) => some (setPc st i (.futures n))
      | .futures 0 => some (setPc st i .commit)
      | .commit => some { setPc st i .barrier with committed := st.committed ++ [i] }
      | .barrier => some (finish st i)

/-- One event; `none`: not possible in this state. -/
def step (st : State) : Ev → Option State
  | .save s => doSave st s
  | .wait => (doWait st).map (·.1)
  | .check => some (doCheck st).1
  | .cancel => some (doCancel st)
  | .bg i o => doBg st i o

/-- States reachable by events satisfying `P`. -/
inductive Reach (P : Ev → Prop) : State → Prop
  | init : Reach P init
  | step (st st' : State) (e : Ev) : Reach P st → P e → step st e = some st' → Reach P st'

end Verif.Async
