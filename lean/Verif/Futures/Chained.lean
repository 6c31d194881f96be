/-!
# Model of waiting for several futures

Models `ChainedFuture` and `get_remaining_time`
(`/repo/checkpoint/orbax/checkpoint/_src/futures/future.py:195-239`).
Time is counted in ticks.  A future completes at some time, or never; once it has completed, its `result`
returns or raises at once.  Simplification: `result(timeout=r)` called at time `t` on a future that completes
exactly at `t + r` counts as in time.
-/

namespace Verif.Futures.Chained

/-- How an operation ends. -/
inductive Outcome | ok | error | timeoutError
deriving DecidableEq, Repr

/-- A future: when it completes (`none`: never), and how. -/
structure Fut where
  doneAt : Option Nat
  outcome : Outcome
deriving DecidableEq, Repr

/-- What the caller gets: normal return; the error of the `k`-th future; a `TimeoutError` saying that `k`
futures had completed; or no return ever. -/
inductive Result
  | ok
  | error (k : Nat)
  | timeout (k : Nat)
  | blocked
deriving DecidableEq, Repr

/-- Observable events: the `k`-th future was seen to succeed; the callback was called. -/
inductive Event | succeeded (k : Nat) | callback
deriving DecidableEq, Repr

/-- `get_remaining_time`, future.py:230-239, for a given timeout; `none`: raises `TimeoutError`. -/
def remaining (start timeout now : Nat) : Option Nat :=
  if now - start ≥ timeout then none else some (timeout - (now - start))

/-- `f.result(timeout=...)` called at time `now` (`none`: no timeout).  Returns when it ends, and how;
`none`: never. -/
def Fut.result (f : Fut) (timeout : Option Nat) (now : Nat) : Option (Nat × Outcome) :=
  match timeout, f.doneAt with
  | none, none => none
  | none, some c => some (max now c, f.outcome)
  | some r, none => some (now + r, .timeoutError)
  | some r, some c => if c ≤ now + r then some (max now c, f.outcome) else some (now + r, .timeoutError)

/-- The loop of `ChainedFuture.result`, future.py:206-213, 222; `fs` pairs every future with the time that
passes before it is waited for.  Returns the result, the time, and the events. -/
def loop (start : Nat) (timeout : Option Nat) : Nat → Nat → List (Nat × Fut) → Result × Nat × List Event
  | now, _, [] => (.ok, now, [.callback])
  | now, k, (d, f) :: fs =>
    match timeout with
    | none => match f.result none (now + d) with
      | none => (.blocked, now + d, [])
      | some (t, .ok) => let r := loop start timeout t (k+1) fs; (r.1, r.2.1, .succeeded k :: r.2.2)
      | some (t, .error) => (.error k, t, [])
      | some (t, .timeoutError) => (.timeout k, t, [])
    | some T => match remaining start T (now + d) with
      | none => (.timeout k, now + d, [])
      | some r => match f.result (some r) (now + d) with
        | none => (.blocked, now + d, [])
        | some (t, .ok) => let r := loop start timeout t (k+1) fs; (r.1, r.2.1, .succeeded k :: r.2.2)
        | some (t, .error) => (.error k, t, [])
        | some (t, .timeoutError) => (.timeout k, t, [])

/-- `ChainedFuture(fs, cb).result(timeout)` called at time `start`, future.py:202-222. -/
def result (start : Nat) (timeout : Option Nat) (fs : List (Nat × Fut)) : Result × Nat × List Event :=
  loop start timeout start 0 fs

end Verif.Futures.Chained
