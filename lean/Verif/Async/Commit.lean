/-!
# Model of the background commit across hosts

Models `_background_wait_for_commit_futures` and the commit callback
(`/repo/checkpoint/orbax/checkpoint/_src/checkpointers/async_checkpointer.py:60-168, 438-508`) for one save
on `n` hosts that run concurrently.  Every host waits for its own commit futures, then meets the others at
the barrier `async_write_complete`; primary hosts run the commit callback; all hosts meet at the barrier
`async_commit_complete`.  Anything may raise at any time.  With one process there are no barriers.
Simplifications: a barrier is passed only when all hosts have arrived (and may time out at any moment on
any host, even after all have arrived); the hosts taking part in the barrier are all hosts.
-/

namespace Verif.Async.Commit

/-- The parts of the commit callback, async_checkpointer.py:451-506, in order: writing the step metadata,
finalizing the handler, the user's post finalization callback, making the checkpoint visible (atomic
rename or commit file), removing the signals. -/
inductive Part | metadata | finalize | postFinalization | publish | cleanup
deriving DecidableEq, Repr

/-- The order of the parts, async_checkpointer.py:451-506. -/
def parts : List Part := [.metadata, .finalize, .postFinalization, .publish, .cleanup]

/-- Where a host is: waiting for `k` more futures; at the first barrier; with these parts of the callback
left to run; at the second barrier; done; or its thread raised. -/
inductive Pc
  | futures (k : Nat)
  | writeBarrier
  | callback (left : List Part)
  | commitBarrier
  | done
  | failed
deriving DecidableEq, Repr

/-- What has happened so far, oldest first. -/
inductive Event
  /-- a commit future of this host completed successfully -/
  | futureOk (h : Nat)
  /-- waiting for a commit future raised on this host -/
  | futureRaised (h : Nat)
  /-- a part of the callback ran on this host -/
  | ran (h : Nat) (p : Part)
deriving DecidableEq, Repr

/-- One save in flight. -/
structure State where
  pc : Nat → Pc
  /-- hosts that have arrived at the first barrier (even if waiting there then raised) -/
  arrivedWrite : Nat → Bool
  /-- hosts that have arrived at the second barrier -/
  arrivedCommit : Nat → Bool
  log : List Event

/-- Configuration of a save: number of hosts, the number of commit futures of each, and the primary host;
`none`: every host is primary, multihost.py:463-466. -/
structure Config where
  n : Nat
  futures : Nat → Nat
  primary : Option Nat

/-- `is_primary_host`, multihost.py:463-466. -/
def isPrimary (c : Config) (h : Nat) : Bool :=
  match c.primary with
  | none => true
  | some p => p == h

/-- Start of the background threads. -/
def init (c : Config) : State := ⟨fun h => .futures (c.futures h), fun _ => false, fun _ => false, []⟩

/-- Update of a function at a point. -/
def upd {α : Type} (f : Nat → α) (h : Nat) (v : α) : Nat → α := fun h' => if h' = h then v else f h'

/-- Entering the callback, async_checkpointer.py:139-140: only primary hosts run it. -/
def enterCallback (c : Config) (h : Nat) : Pc := .callback (if isPrimary c h then parts else [])

/-- Have all hosts arrived? -/
def all (c : Config) (arrived : Nat → Bool) : Bool := (List.range c.n).all arrived

/-- A step of host `h` that does not raise, async_checkpointer.py:88-168; `none`: blocked or finished. -/
def stepOk (c : Config) (st : State) (h : Nat) : Option State :=
  match st.pc h with
  | .futures (k+1) => some { st with pc := upd st.pc h (.futures k), log := st.log ++ [.futureOk h] }
  | .futures 0 =>
    if c.n > 1 then
      some { st with pc := upd st.pc h .writeBarrier, arrivedWrite := upd st.arrivedWrite h true }
    else some { st with pc := upd st.pc h (enterCallback c h) }
  | .writeBarrier =>
    if all c st.arrivedWrite then some { st with pc := upd st.pc h (enterCallback c h) } else none
  | .callback (p :: ps) => some { st with pc := upd st.pc h (.callback ps), log := st.log ++ [.ran h p] }
  | .callback [] =>
    if c.n > 1 then
      some { st with pc := upd st.pc h .commitBarrier, arrivedCommit := upd st.arrivedCommit h true }
    else some { st with pc := upd st.pc h .done }
  | .commitBarrier =>
    if all c st.arrivedCommit then some { st with pc := upd st.pc h .done } else none
  | .done => none
  | .failed => none

/-- A step of host `h` that raises: its thread ends, async_checkpointer.py:248-265. -/
def stepRaise (st : State) (h : Nat) : Option State :=
  match st.pc h with
  | .futures _ => some { st with pc := upd st.pc h .failed, log := st.log ++ [.futureRaised h] }
  | .done => none
  | .failed => none
  | _ => some { st with pc := upd st.pc h .failed }

/-- States reachable under any interleaving. -/
inductive Reach (c : Config) : State → Prop
  | init : Reach c (init c)
  | ok (st st' : State) (h : Nat) : Reach c st → h < c.n → stepOk c st h = some st' → Reach c st'
  | raise (st st' : State) (h : Nat) : Reach c st → h < c.n → stepRaise st h = some st' → Reach c st'

end Verif.Async.Commit
