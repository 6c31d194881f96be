/-!
# Model of the in-flight byte limiter

Models `LimitInFlightBytes`, `get_byte_limiter` and `reserved_bytes`
(`/repo/checkpoint/orbax/checkpoint/_src/serialization/limits.py:34-110`), used by any number of asyncio
tasks, each of which runs `async with reserved_bytes(limiter, n): body`.
asyncio runs one task at a time and switches only at an `await` that suspends.  The lock of the condition is
never held across such an `await` except inside `Condition.wait`, which releases it; so every piece of code
under `async with self._cv` between two waits is one atomic step.  `notify_all` wakes every task asleep in
`wait_for`; each rechecks its predicate in its own later step, in any order.
Sizes are natural numbers.
-/

namespace Verif.Memory.Limits

/-- What a task is doing: has not called `wait_for_bytes` yet; asleep in `Condition.wait` (limits.py:56);
notified, not yet run again; inside the `reserved_bytes` body; left it; got `ValueError` (limits.py:50-54);
cancelled before it got its reservation. -/
inductive Task
  | idle (n : Nat) | sleeping (n : Nat) | woken (n : Nat) | holding (n : Nat)
  | done (n : Nat) | rejected (n : Nat) | cancelled (n : Nat)
deriving DecidableEq, Repr

/-- The limiter (limits.py:37-42) and its tasks. -/
structure St where
  maxBytes : Nat
  available : Int
  tasks : List Task
deriving DecidableEq, Repr

/-- `LimitInFlightBytes.__init__`, limits.py:37-42, before any task runs; `none`: `ValueError`. -/
def mk (numBytes : Int) (sizes : List Nat) : Option St :=
  if numBytes ≤ 0 then none
  else some { maxBytes := numBytes.toNat, available := numBytes.toNat, tasks := sizes.map .idle }

/-- The limiter made by `get_byte_limiter`, limits.py:90-97: `some none` is `UnlimitedInFlightBytes`, the
outer `none` is `ValueError`. -/
def getByteLimiter (concurrentBytes : Option Int) (sizes : List Nat) : Option (Option St) :=
  match concurrentBytes with
  | none => some none
  | some n => if n ≤ 0 then none else (mk n sizes).map some

/-- One evaluation of the predicate of `wait_for` and what follows it, limits.py:56-57. -/
def tryReserve (s : St) (i n : Nat) : St :=
  if s.available > n then
    { s with available := s.available - n, tasks := s.tasks.set i (.holding n) }
  else { s with tasks := s.tasks.set i (.sleeping n) }

/-- Entry of `wait_for_bytes`, limits.py:48-57. -/
def request (s : St) (i n : Nat) : St :=
  if n ≥ s.maxBytes then { s with tasks := s.tasks.set i (.rejected n) } else tryReserve s i n

/-- `notify_all` on a task. -/
def wake : Task → Task
  | .sleeping n => .woken n
  | t => t

/-- `release_bytes`, limits.py:66-76. -/
def release (s : St) (i n : Nat) : St :=
  { s with available := s.available + n, tasks := (s.tasks.set i (.done n)).map wake }

/-- A task runs, until it suspends.  `reserved_bytes` (limits.py:100-110) requests, runs its body, and
releases in the `finally`. -/
inductive Step : St → St → Prop
  | request {s i n} (h : s.tasks[i]? = some (Task.idle n)) : Step s (request s i n)
  | recheck {s i n} (h : s.tasks[i]? = some (Task.woken n)) : Step s (tryReserve s i n)
  /-- The body ends, normally, by an exception or by cancellation. -/
  | release {s i n} (h : s.tasks[i]? = some (Task.holding n)) : Step s (release s i n)
  /-- Cancellation while waiting: `wait_for_bytes` raises and nothing is released (limits.py:106 is outside
  the `try`). -/
  | cancel {s i n} (h : s.tasks[i]? = some (Task.idle n) ∨ s.tasks[i]? = some (Task.sleeping n) ∨
      s.tasks[i]? = some (Task.woken n)) : Step s { s with tasks := s.tasks.set i (.cancelled n) }

/-- States reachable by tasks of the given sizes on a limiter of the given size. -/
inductive Reach (numBytes : Int) (sizes : List Nat) : St → Prop
  | init {s} (h : mk numBytes sizes = some s) : Reach numBytes sizes s
  | step {s s'} : Reach numBytes sizes s → Step s s' → Reach numBytes sizes s'

/-- Executions with their number of steps. -/
inductive Steps : Nat → St → St → Prop
  | refl (s) : Steps 0 s s
  | tail {k s s' s''} : Steps k s s' → Step s' s'' → Steps (k+1) s s''

end Verif.Memory.Limits
