/-!
# Finalizing a partial save from several processes

Model of `finalize` of experimental/v1/_src/partial/saving.py as the processes
of a job carry it out together on shared storage: looking at the path, merging
and renaming on the primary, telling the others how it went, with the barriers
between them. What the merge does to the files is the model of C61; here it is
one of four outcomes.

Every process that takes part runs the same program; a schedule says which
process moves next. A process may stop at any point: a crash, an error of the
storage while it looks, or a barrier that times out in it.
-/

namespace Verif.PartialFin

/-- Where processes meet: the three barriers of one `finalize`
(saving.py:566-573, 584-591 and 609-616) and the broadcast (602-607).
Simplified: operation id and prefix, which are in the keys, are left out. -/
inductive Key
  | existence | renameStart | broadcast | renameComplete
  deriving DecidableEq, Repr

/-- The errors a process can raise (saving.py:575-582, 598-600 and 618-619):
`exists`, `notFound`: from looking at the path; `own`: the primary raises what
the merge or the rename raised; `told`: the `OSError` of the others; `escaped`:
an error of the merge that is neither a `ValueError` nor an `OSError`. -/
inductive Err
  | fileExists | notFound | own | told | escaped
  deriving DecidableEq, Repr

/-- Where a process is in `finalize` (saving.py:565-619). -/
inductive Pc
  | start | wait (k : Key) | check | merge | merging | rename | done
  | raised (e : Err)
  deriving DecidableEq, Repr

/-- What is at the path: nothing, an earlier checkpoint, the finalized one. -/
inductive Final
  | absent | old | published
  deriving DecidableEq, Repr

/-- The directory of the partial saves: not there, as the partial saves left it,
merged in part, merged. -/
inductive Part
  | none | pending | half | merged
  deriving DecidableEq, Repr

/-- How merging and renaming go on the primary (saving.py:595-600): both succeed,
the merge raises a `ValueError` or `OSError`, the merge raises something else,
the rename raises. -/
inductive Outcome
  | ok | mergeFails | mergeEscapes | renameFails
  deriving DecidableEq, Repr

/-- One `finalize`. The job has processes `0 … n-1`, of which those with
`active` take part (`active_processes`, by default all), and `primary` is
`primary_host`.
Simplified: `primary_host` is a number; with `None` every process merges. -/
structure Cfg where
  n : Nat
  active : Nat → Bool
  primary : Nat
  outcome : Outcome

/-- The state of the processes, of the barriers and of the storage. `failed` is
`finalize_failed` on the primary (saving.py:592 and 599), `got` what a process
was told of it (saving.py:602). -/
structure State where
  pc : Nat → Pc
  dead : Nat → Bool
  arrived : Key → Nat → Bool
  final : Final
  part : Part
  failed : Bool
  got : Nat → Bool

/-- Writes one entry of a table. -/
def upd {α : Type} (f : Nat → α) (p : Nat) (v : α) : Nat → α :=
  fun q => if q = p then v else f q

/-- The process moves to `pc`. -/
def goto (s : State) (p : Nat) (pc : Pc) : State :=
  { s with pc := upd s.pc p pc }

/-- The process arrives at a meeting point and waits. -/
def arrive (s : State) (p : Nat) (k : Key) : State :=
  { s with
    pc := upd s.pc p (.wait k)
    arrived := fun k' q => if k' = k ∧ q = p then true else s.arrived k' q }

/-- Whom a meeting point waits for. The barriers: the active processes
(experimental/v1/_src/synchronization/multihost.py:79-142). The broadcast is one
of all processes of the job, whatever `active_processes` says
(multihost.py:205-211, `jax.experimental.multihost_utils.broadcast_one_to_all`). -/
def awaits (c : Cfg) (q : Nat) : Key → Bool
  | .broadcast => true
  | _ => c.active q

/-- A meeting point lets processes through once all it waits for have arrived.
Skipping a barrier of one process (multihost.py:50-57) is the same thing, as is
a broadcast in a job of one process. -/
def isOpen (c : Cfg) (s : State) (k : Key) : Bool :=
  (List.range c.n).all (fun q => !awaits c q k || s.arrived k q)

/-- Looking at the path and at the directory of the partial saves
(saving.py:575-582), then the second barrier. -/
def lookAt (s : State) (p : Nat) : State :=
  if s.final ≠ .absent then goto s p (.raised .fileExists)
  else if s.part = .none then goto s p (.raised .notFound)
  else arrive s p .renameStart

/-- The end of the merge (saving.py:596-600). -/
def endMerge (c : Cfg) (p : Nat) (s : State) : State :=
  match c.outcome with
  | .mergeFails => arrive { s with failed := true } p .broadcast
  | .mergeEscapes => goto s p (.raised .escaped)
  | _ => goto { s with part := .merged } p .rename

/-- The rename (saving.py:597-600). -/
def renameStep (c : Cfg) (p : Nat) (s : State) : State :=
  match c.outcome with
  | .renameFails => arrive { s with failed := true } p .broadcast
  | _ => arrive { s with final := .published, part := .none } p .broadcast

/-- What a process does once its meeting point is open. -/
def afterMeeting (c : Cfg) (s : State) (p : Nat) : Key → State
  | .existence => goto s p .check
  | .renameStart =>
    if p = c.primary then goto s p .merge else arrive s p .broadcast
  | .broadcast => arrive { s with got := upd s.got p s.failed } p .renameComplete
  | .renameComplete =>
    if s.got p then
      goto s p (.raised (if p = c.primary then .own else .told))
    else goto s p .done

/-- One move of process `p`; `none` when it cannot move. The merge is two moves:
it has begun, it is over. -/
def step (c : Cfg) (p : Nat) (s : State) : Option State :=
  if p < c.n ∧ c.active p = true ∧ s.dead p = false then
    match s.pc p with
    | .start => some (arrive s p .existence)
    | .wait k => if isOpen c s k then some (afterMeeting c s p k) else none
    | .check => some (lookAt s p)
    | .merge => some (goto { s with part := .half } p .merging)
    | .merging => some (endMerge c p s)
    | .rename => some (renameStep c p s)
    | .done => none
    | .raised _ => none
  else none

/-- What a schedule consists of: a process moves, or stops for good. -/
inductive Act
  | run (p : Nat)
  | stop (p : Nat)
  deriving DecidableEq, Repr

/-- One entry of a schedule; a process that cannot move does nothing. -/
def act (c : Cfg) (s : State) : Act → State
  | .run p => (step c p s).getD s
  | .stop p => { s with dead := upd s.dead p true }

/-- A whole schedule. -/
def exec (c : Cfg) (s : State) : List Act → State
  | [] => s
  | a :: as => exec c (act c s a) as

/-- Before the call: what is at the path and in the directory of the partial
saves. -/
def initial (f : Final) (d : Part) : State where
  pc := fun _ => .start
  dead := fun _ => false
  arrived := fun _ _ => false
  final := f
  part := d
  failed := false
  got := fun _ => false

end Verif.PartialFin
