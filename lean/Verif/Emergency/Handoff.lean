/-!
# The controller's side of saves done by worker sidecars

Models `experimental/emergency/multi_tier_checkpointing/colocated_controller.py` (the life of one pending save, and the
public calls that start, poll, finish and check it), the parts of `colocated_utils.py` that combine the workers' answers,
and how workers report their steps (`sidecar_worker_checkpoint_manager.py:312-324`).

Simplifications: one thread calls the controller; the background thread that waits for the workers' answer is
interleaved with it. The workers, the persistent manager and JAX answer whatever the environment says, given with each call
(`Env`). A call that waits for the background thread is not enabled until that thread is done. Publishing the answer and
ending the thread are one move. Timing, logging and the conversion of the state to arrays on the workers are omitted
(`prepare` says whether they raised). Every effect visible outside is recorded in a log, oldest first.
-/

namespace Verif.Emergency.Handoff

inductive Err where
  /-- the workers' call raised -/
  | worker (e : Nat)
  /-- the workers' answers differ (`RuntimeError`) -/
  | disagree
  /-- the workers' answer is not a boolean (`TypeError`) -/
  | notBool
  /-- the persistent manager raised -/
  | persistent (e : Nat)
  /-- `NotImplementedError`: dataset state without a persistent directory -/
  | noPersistentDirectory
deriving DecidableEq, Repr

/-- What became of the array returned by the workers' `save`. -/
inductive Result where
  /-- `jax.block_until_ready` raised -/
  | raised (e : Nat)
  /-- one boolean per shard: the first and the others -/
  | bools (b : Bool) (rest : List Bool)
  /-- scalars of another type -/
  | other
deriving DecidableEq, Repr

abbrev Answer := Except Err Bool

/-- `await_handoff`, colocated_controller.py:230-257, with `require_unanimous_scalar_result`, colocated_utils.py:192-221. -/
def answerOf : Result → Answer
  | .raised e => .error (.worker e)
  | .bools b rest => if rest.all (· == b) then .ok b else .error .disagree
  | .other => .error .notBool

/-- Where the background thread is (`_drain_handoff`, colocated_controller.py:209-228). -/
inductive Phase where
  /-- in `jax.block_until_ready` -/
  | waiting
  /-- the answer is known -/
  | ready (r : Answer)
  /-- and the payload has been released -/
  | released (r : Answer)
  /-- and the answer is published: the thread has ended -/
  | done (r : Answer)

/-- `_PendingSave`, colocated_controller.py:135-152. `id` numbers the saves; `data`: is there dataset state? -/
structure Pending where
  id : Nat
  step : Nat
  data : Bool
  phase : Phase
  saved : Option Bool

/-- What the persistent manager's `save` did. -/
inductive Outcome where
  | raised (e : Nat)
  | returned (saved : Bool)
deriving DecidableEq, Repr

inductive Kind where
  | save (step : Nat) (force : Bool)
  | wait
  | check
  | close
  | poll
deriving DecidableEq, Repr

/-- What can be seen from outside. -/
inductive Eff where
  /-- the workers were asked to save -/
  | dispatch (id step : Nat) (data : Bool)
  /-- the workers' answer arrived -/
  | answer (id : Nat) (r : Answer)
  /-- the controller released the payload -/
  | unpin (id : Nat)
  /-- the background thread ended -/
  | handed (id : Nat)
  /-- the persistent manager was asked to save the dataset -/
  | dataset (id step : Nat) (o : Outcome)
  /-- the workers were asked to finish, after this save or on behalf of no save -/
  | waited (id : Option Nat) (r : Except Err Unit)
  /-- a call returned or raised -/
  | ret (k : Kind) (r : Answer)

structure State where
  pending : Option Pending
  next : Nat
  log : List Eff

/-- A controller that was just made. -/
def init : State := ⟨none, 0, []⟩

def emit (e : Eff) (s : State) : State := { s with log := s.log ++ [e] }

inductive Move where
  | arrive (res : Result)
  | release
  | publish

/-- One move of the background thread, colocated_controller.py:209-257 and 323-337. An error from `block_until_ready`
releases the payload in `_drain_handoff`, other outcomes in `await_handoff`: both before anything is published. -/
def move (m : Move) (s : State) : State :=
  match s.pending with
  | none => s
  | some p =>
    match m, p.phase with
    | .arrive res, .waiting =>
      emit (.answer p.id (answerOf res)) { s with pending := some { p with phase := .ready (answerOf res) } }
    | .release, .ready r => emit (.unpin p.id) { s with pending := some { p with phase := .released r } }
    | .publish, .released (.error e) =>
      emit (.handed p.id) { s with pending := some { p with phase := .done (.error e) } }
    | .publish, .released (.ok b) =>
      emit (.handed p.id) { s with pending := some { p with
        phase := .done (.ok b), saved := if !b || !p.data then some b else p.saved } }
    | _, _ => s

def moves (ms : List Move) (s : State) : State := ms.foldl (fun s m => move m s) s

/-- Answers to the calls made while a pending save is finished. -/
structure FinEnv where
  persist : Outcome
  wait : Except Err Unit

/-- `drain` and `_drain`, colocated_controller.py:270-308, with `join_handoff`, 259-268, and `_save_persistent_dataset`,
1308-1326. `none`: the call blocks. -/
def drain (wait : Bool) (o : Outcome) (s : State) : Option (Answer × State) :=
  match s.pending with
  | none => some (.ok false, s)
  | some p =>
    match p.saved with
    | some b => some (.ok b, s)
    | none =>
      match p.phase with
      | .done (.error e) => some (.error e, s)
      | .done (.ok false) => some (.ok false, { s with pending := some { p with saved := some false } })
      | .done (.ok true) =>
        if p.data then
          match o with
          | .raised e => some (.error (.persistent e), emit (.dataset p.id p.step o) s)
          | .returned _ =>
            some (.ok true, emit (.dataset p.id p.step o) { s with pending := some { p with saved := some true } })
        else some (.ok true, { s with pending := some { p with saved := some true } })
      | _ => if wait then none else some (.ok false, s)

/-- The part of `finish` after `_drain`, colocated_controller.py:347-363: the workers are waited for if they saved, and the
pending save is forgotten, even if waiting raised. -/
def settle (id : Nat) (b : Bool) (w : Except Err Unit) (s : State) : Answer × State :=
  if b then
    match w with
    | .error e => (.error e, { emit (.waited (some id) w) s with pending := none })
    | .ok () => (.ok b, { emit (.waited (some id) w) s with pending := none })
  else (.ok b, { s with pending := none })

/-- `finish`, colocated_controller.py:339-363. With no pending save it returns `None`, which is `false` here, as `save`
makes it. -/
def finish (f : FinEnv) (s : State) : Option (Answer × State) :=
  match s.pending with
  | none => some (.ok false, s)
  | some p =>
    match drain true f.persist s with
    | none => none
    | some (.error e, s') => some (.error e, s')
    | some (.ok b, s') => some (settle p.id b f.wait s')

structure Config where
  async : Bool
  persistentDirectory : Bool

/-- What the environment answers during a call. -/
structure Env where
  should : Answer
  fin : FinEnv
  prepare : Except Err Unit
  /-- what the background thread does during the call -/
  during : List Move
  fin2 : FinEnv
  persistent : Except Err Unit
  workers : Except Err Unit
  workersBusy : Except Err (List Bool)
  persistentBusy : Answer

/-- `save` after the previous save has been finished, colocated_controller.py:984-1021: the payload is prepared and sent,
and the save is published; without asynchronous checkpointing it is finished at once. -/
def launch (c : Config) (step : Nat) (data : Bool) (v : Env) (s : State) : Option (Answer × State) :=
  match v.prepare with
  | .error e => some (.error e, s)
  | .ok () =>
    let s := emit (.dispatch s.next step data)
      { s with pending := some ⟨s.next, step, data, .waiting, none⟩, next := s.next + 1 }
    if c.async then some (.ok true, s)
    else finish v.fin2 (moves v.during s)

/-- `save`, colocated_controller.py:936-1021, with `should_save`, 908-922, and `start_handoff_drain`, 195-207. Step 0 stands for "no checkpoint". -/
def save (c : Config) (step : Nat) (force data : Bool) (v : Env) (s : State) : Option (Answer × State) :=
  if step = 0 then some (.ok false, s)
  else
    let go : Option (Answer × State) :=
      if data && !c.persistentDirectory then some (.error .noPersistentDirectory, s)
      else
        match finish v.fin s with
        | none => none
        | some (.error e, s') => some (.error e, s')
        | some (.ok _, s') => launch c step data v s'
    if force then go
    else
      match v.should with
      | .error e => some (.error e, s)
      | .ok true => go
      | .ok false =>
        match drain false v.fin.persist s with
        | none => none
        | some (.error e, s') => some (.error e, s')
        | some (.ok _, s') => some (.ok false, s')

/-- `_run_lifecycle_ops`, colocated_controller.py:95-109: all are run and the first failure is raised. -/
def firstError (r : Answer) (rest : List (Except Err Unit)) : Answer :=
  match r, rest with
  | .error e, _ => .error e
  | .ok b, [] => .ok b
  | .ok _, .error e :: _ => .error e
  | .ok b, .ok () :: l => firstError (.ok b) l

def ifDirectory (c : Config) (r : Except Err Unit) : List (Except Err Unit) :=
  if c.persistentDirectory then [r] else []

/-- `wait_until_finished`, colocated_controller.py:1163-1171. -/
def wait (c : Config) (v : Env) (s : State) : Option (Answer × State) :=
  match finish v.fin s with
  | none => none
  | some (r, s') =>
    if s.pending.isSome then some (firstError r (ifDirectory c v.persistent), s')
    else some (firstError r (ifDirectory c v.persistent ++ [v.workers]), emit (.waited none v.workers) s')

/-- `raise_on_handoff_error`, colocated_controller.py:310-321. -/
def handoffError (s : State) : Answer :=
  match s.pending with
  | none => .ok true
  | some p =>
    match p.phase with
    | .done (.error e) => .error e
    | _ => .ok true

/-- `check_for_errors`, colocated_controller.py:1173-1179. -/
def check (c : Config) (v : Env) (s : State) : Option (Answer × State) :=
  some (firstError (handoffError s) (ifDirectory c v.persistent ++ [v.workers]), s)

/-- `close`, colocated_controller.py:1181-1187. -/
def close (c : Config) (v : Env) (s : State) : Option (Answer × State) :=
  match finish v.fin s with
  | none => none
  | some (r, s') => some (firstError r (ifDirectory c v.persistent ++ [v.workers]), s')

/-- `has_undrained_pending_save`, colocated_controller.py:190-193. -/
def undrained (s : State) : Bool :=
  match s.pending with
  | none => false
  | some p => p.saved.isNone

/-- `is_saving_in_progress`, colocated_controller.py:924-934 and 1198-1214. -/
def poll (c : Config) (v : Env) (s : State) : Option (Answer × State) :=
  match drain false v.fin.persist s with
  | none => none
  | some (.error e, s') => some (.error e, s')
  | some (.ok _, s') =>
    let s' := moves v.during s'
    if undrained s' then some (.ok true, s')
    else
      match v.workersBusy with
      | .error e => some (.error e, s')
      | .ok busy =>
        if c.persistentDirectory then
          match v.persistentBusy with
          | .error e => some (.error e, s')
          | .ok b => some (.ok (busy.any id || b), s')
        else some (.ok (busy.any id), s')

inductive Event where
  | move (m : Move)
  | save (step : Nat) (force data : Bool) (v : Env)
  | wait (v : Env)
  | check (v : Env)
  | close (v : Env)
  | poll (v : Env)

def returning (k : Kind) : Option (Answer × State) → Option State
  | none => none
  | some (r, s) => some (emit (.ret k r) s)

/-- One move of the background thread or one call. -/
def exec (c : Config) (s : State) : Event → Option State
  | .move m => some (move m s)
  | .save step force data v => returning (.save step force) (save c step force data v s)
  | .wait v => returning .wait (wait c v s)
  | .check v => returning .check (check c v s)
  | .close v => returning .close (close c v s)
  | .poll v => returning .poll (poll c v s)

def run (c : Config) : State → List Event → Option State
  | s, [] => some s
  | s, e :: es =>
    match exec c s e with
    | none => none
    | some s' => run c s' es

/-! ## Steps on the workers -/

def insertSorted (x : Int) : List Int → List Int
  | [] => [x]
  | y :: l => if x ≤ y then x :: y :: l else y :: insertSorted x l

def sortInts : List Int → List Int
  | [] => []
  | x :: l => insertSorted x (sortInts l)

/-- The worker's `all_steps`, sidecar_worker_checkpoint_manager.py:312-324: the last 128 steps, filled up with zeros. -/
def report (steps : List Int) : List Int :=
  let l := sortInts steps
  let l := l.drop (l.length - 128)
  l ++ List.replicate (128 - l.length) 0

def commonSteps : List (List Int) → List Int
  | [] => []
  | [l] => l
  | l :: ls => l.filter fun x => (commonSteps ls).contains x

def maxOf : List Int → Option Int
  | [] => none
  | x :: l =>
    match maxOf l with
    | none => some x
    | some y => some (if x < y then y else x)

/-- The controller's `latest_step` from the arrays of the workers, colocated_controller.py:836-894. Simplification: calls
that fail and are tried again are not modelled. -/
def latestStep (reports : List (List Int)) : Option Int :=
  maxOf (commonSteps (reports.map fun l => l.filter (· ≠ 0)))

/-- `restore` with no step and with dataset state: the step is the latest, and the persistent manager must have it,
colocated_controller.py:1061-1070 and 1434-1461. `none`: it raises. -/
def restoreLatest (workers : List (List Int)) (persistent : List Int) : Option Int :=
  match latestStep (workers.map report) with
  | none => none
  | some s => if persistent.contains s then some s else none

end Verif.Emergency.Handoff
