/-!
# Model of `checkpoints_iterator`

Models `/repo/checkpoint/orbax/checkpoint/checkpoint_utils.py:83-442` on the primary process.
The environment is a list of polls: what each round of the waiting loop observes.  The consumer of the iterator runs between
two waits; it is part of the environment.  A generator that is closed early and the release of snapshots are not modelled.
-/

namespace Verif.Iterator

/-- What the attempt to make a snapshot meets, checkpoint_utils.py:97-125. -/
inductive Snap where
  /-- The snapshot is made (or exists already). -/
  | ok
  /-- `FileNotFoundError` while copying. -/
  | notFound
  /-- Another exception, e.g. the step is gone. -/
  | error
  deriving DecidableEq, Repr

/-- One round of the waiting loop. -/
structure Poll where
  /-- The steps present; `none`: the directory does not exist. -/
  dir : Option (List Nat)
  snap : Snap := .ok
  /-- The time `_sleep_and_maybe_exit` reads. -/
  now : Int := 0
  /-- What `timeout_fn` answers in `_sleep_and_maybe_exit`, and in `checkpoints_iterator`. -/
  answer : Bool := false
  answer' : Bool := false
  /-- The time at which the next wait starts, if this round ends the wait. -/
  next : Int := 0
  deriving Repr

/-- The arguments of `checkpoints_iterator`. -/
structure Config where
  sleep : Int := 1
  timeout : Option Int := none
  hasTimeoutFn : Bool := false
  ignoreErrors : Bool := true

/-- How the iterator stands. -/
inductive Status where
  | running
  | ended
  | raised
  deriving DecidableEq, Repr

/-- A step yielded; has it a complete snapshot? -/
structure Yield where
  step : Nat
  snapshot : Bool
  deriving DecidableEq, Repr

structure State where
  /-- `checkpoint_step`. -/
  last : Option Nat := none
  /-- `stop_time` of the current wait. -/
  stop : Option Int
  status : Status := .running
  yields : List Yield := []
  deriving DecidableEq, Repr

/-- `max(steps)`, checkpoint_utils.py:204. -/
def maxStep : List Nat → Option Nat
  | [] => none
  | s :: l => some (l.foldl max s)

/-- `_reached_desired_step`, checkpoint_utils.py:152-159, with `until_step = checkpoint_step + 1`, 415. -/
def reached (last : Option Nat) (step : Option Nat) : Bool := match step with
  | none => false
  | some s => match last with
    | none => true
    | some l => s ≥ l + 1

/-- `stop_time`, checkpoint_utils.py:175-176. -/
def stopAt (c : Config) (start : Int) : Option Int := c.timeout.map fun t => start + t

/-- `_sleep_and_maybe_exit`, checkpoint_utils.py:178-186: exit? -/
def maybeExit (c : Config) (st : State) (p : Poll) : Bool := match st.stop with
  | none => false
  | some t => p.now + c.sleep > t && (!c.hasTimeoutFn || p.answer)

/-- The end of a wait without a checkpoint, checkpoint_utils.py:427-436. -/
def timedOut (c : Config) (st : State) (p : Poll) : State :=
  if !c.hasTimeoutFn then { st with status := .ended }
  else if p.answer' then { st with status := .ended }
  else { st with stop := stopAt c p.next }

/-- The end of a wait with a checkpoint, checkpoint_utils.py:206-216, 220, 437-439.  `np.int32` refuses a larger step. -/
def found (c : Config) (st : State) (p : Poll) (s : Nat) : State :=
  if p.snap = .error ∨ (p.snap = .notFound ∧ c.ignoreErrors = false) then { st with status := .raised }
  else if s ≥ 2147483648 then { st with status := .raised }
  else { st with last := some s, stop := stopAt c p.next, yields := st.yields ++ [⟨s, p.snap = .ok⟩] }

/-- One round, checkpoint_utils.py:197-218. -/
def round (c : Config) (st : State) (p : Poll) : State :=
  if st.status ≠ .running then st
  else match p.dir with
    | none => if maybeExit c st p then timedOut c st p else st
    | some steps => match maxStep steps with
      | none => if maybeExit c st p then timedOut c st p else st
      | some s =>
        if reached st.last (some s) then found c st p s
        else if maybeExit c st p then timedOut c st p else st

/-- `checkpoints_iterator`, checkpoint_utils.py:313-442, started at the time `start`. -/
def run (c : Config) (start : Int) (polls : List Poll) : State := polls.foldl (round c) { stop := stopAt c start }

end Verif.Iterator
