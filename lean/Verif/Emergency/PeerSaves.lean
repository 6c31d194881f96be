/-!
# Saving with the peer-to-peer checkpoint manager

checkpoint/orbax/checkpoint/experimental/emergency/p2p/checkpoint_manager.py (`save`, `should_save`, `delete`, `all_steps`), with the two
managers it is made of, p2p/local.py and p2p/persistent.py, and their policy, p2p/policies.py.  Of checkpoint_manager.py (the
`CheckpointManager` of either) only what decides about steps is here; every write succeeds, and `read` is not used.  All processes make the
same calls, so that one stands for all.
-/

namespace Verif.Emergency.PeerSaves

/-- `ZeroDivisionError` (p2p/policies.py:45), `StepAlreadyExistsError`, `FileNotFoundError` (checkpoint_manager.py:1476, 1290). -/
inductive Err | zeroDivision | exists | notFound
deriving DecidableEq, Repr

/-- The options of either manager, p2p/options.py:22-68; `keep` is `max_to_keep`. -/
structure Opts where
  interval : Nat
  offset : Nat
  keep : Option Nat

/-- `LocalCheckpointOptions.__post_init__`, p2p/options.py:43-45. -/
def localOpts (o : Opts) : Opts := { o with keep := some (o.keep.getD 1) }

/-- `OffsetFixedIntervalPolicy.should_save`, p2p/policies.py:32-45. -/
def due (o : Opts) (step : Nat) : Except Err Bool :=
  if step < o.offset then .ok false
  else if o.interval = 0 then .error .zeroDivision
  else .ok ((step - o.offset) % o.interval == 0)

/-- `should_save` of either manager, checkpoint_manager.py:1213-1250, with the steps it knows in their order. -/
def shouldSave1 (o : Opts) (steps : List Nat) (step : Nat) : Except Err Bool :=
  match steps.getLast? with
  | some l => if l ≥ step then .ok false else due o step
  | none => due o step

/-- `LatestN.should_preserve`, preservation_policy.py:90-101, applied to the steps: checkpoint_manager.py:1544, 1554. -/
def preserved (keep : Option Nat) (steps : List Nat) : List Nat :=
  match keep with
  | none => steps
  | some n => if steps.length ≤ n then steps else steps.drop (steps.length - n)

/-- `save` of either manager, checkpoint_manager.py:1412-1555. -/
def save1 (o : Opts) (steps : List Nat) (step : Nat) (force : Bool) : Except Err (Bool × List Nat) :=
  let go : Except Err (Bool × List Nat) :=
    if step ∈ steps then .error .exists else .ok (true, preserved o.keep (steps ++ [step]))
  if force then go
  else
    match shouldSave1 o steps step with
    | .error e => .error e
    | .ok false => .ok (false, steps)
    | .ok true => go

/-- `delete` of either manager, checkpoint_manager.py:1274-1303. -/
def delete1 (steps : List Nat) (step : Nat) : Except Err (List Nat) :=
  if step ∉ steps then .error .notFound else .ok (steps.filter fun s => decide (s ≠ step))

/-- The manager, p2p/checkpoint_manager.py:252-265: the steps in local storage, and those in persistent storage if there is any. -/
structure Mgr where
  lopts : Opts
  popts : Opts
  loc : List Nat
  pers : Option (List Nat)

/-- `__init__`, p2p/checkpoint_manager.py:223-273, with the steps that are there. -/
def make (lo po : Opts) (loc : List Nat) (pers : Option (List Nat)) : Mgr := ⟨localOpts lo, po, loc, pers⟩

/-- `should_save`, p2p/checkpoint_manager.py:331-336. -/
def shouldSave (m : Mgr) (step : Nat) : Except Err Bool :=
  match shouldSave1 m.lopts m.loc step with
  | .error e => .error e
  | .ok b =>
    match m.pers with
    | none => .ok b
    | some p => if b then .ok true else shouldSave1 m.popts p step

/-- `save`, p2p/checkpoint_manager.py:346-367. -/
def save (m : Mgr) (step : Nat) (force : Bool) : Except Err Bool × Mgr :=
  match save1 m.lopts m.loc step force with
  | .error e => (.error e, m)
  | .ok (b, loc) =>
    match m.pers with
    | none => (.ok b, { m with loc := loc })
    | some p =>
      match save1 m.popts p step force with
      | .error e => (.error e, { m with loc := loc })
      | .ok (b', p') => (.ok (b || b'), { m with loc := loc, pers := some p' })

/-- `delete`, p2p/checkpoint_manager.py:338-344. -/
def delete (m : Mgr) (step : Nat) : Except Err Unit × Mgr :=
  match delete1 m.loc step with
  | .error e => (.error e, m)
  | .ok loc =>
    match m.pers with
    | none => (.ok (), { m with loc := loc })
    | some p =>
      match delete1 p step with
      | .error e => (.error e, { m with loc := loc })
      | .ok p' => (.ok (), { m with loc := loc, pers := some p' })

/-- Adding to a sorted list without repetitions, for `sorted(list(set))` of p2p/checkpoint_manager.py:290. -/
def insert (n : Nat) : List Nat → List Nat
  | [] => [n]
  | x :: l => if n < x then n :: x :: l else if n = x then x :: l else x :: insert n l

/-- `all_steps`, p2p/checkpoint_manager.py:283-290: `own` says that the local checkpoints are those of this process (p2p/local.py:232-236),
`peers` are the steps that others have. -/
def allSteps (m : Mgr) (own : Bool) (peers : List Nat) : List Nat :=
  ((if own then m.loc else []) ++ peers ++ m.pers.getD []).foldr insert []

/-- The calls of a program, p2p/checkpoint_manager.py:339, 347. -/
inductive Call
  | save (step : Nat) (force : Bool)
  | delete (step : Nat)

/-- One call of p2p/checkpoint_manager.py:338-367; an exception is caught by the program. -/
def step (m : Mgr) : Call → Mgr
  | .save s f => (save m s f).2
  | .delete s => (delete m s).2

/-- A program that calls p2p/checkpoint_manager.py:338-367 any number of times. -/
def run (m : Mgr) (cs : List Call) : Mgr := cs.foldl step m

end Verif.Emergency.PeerSaves
