import Verif.Policies.Model

/-!
# Model of the save decision policies

Models `/repo/checkpoint/orbax/checkpoint/_src/checkpoint_managers/save_decision_policy.py` and the
default policy built by `checkpoint_manager.py`.

Simplifications: times are integers (ticks of one clock, `minimum_interval_secs` in ticks); the
multi-host broadcast of `ContinuousCheckpointingPolicy` (lines 244-263) is modelled separately in
`hostResult` below, so `shouldSave` is the decision of the primary host; logging dropped.
-/

namespace Verif.SavePolicy

open Verif.Policies (Ckpt)

/-- `DecisionContext`, save_decision_policy.py:33-46 (the multiprocessing options are dropped). -/
structure Ctx where
  inProgress : Bool
  preempted : Bool
deriving DecidableEq, Repr

/-- `ZeroDivisionError` of `step % 0`. -/
inductive Err | zeroDivision
deriving DecidableEq, Repr

/-- The policies. `fn` is `_ShouldSaveFnPolicy` (checkpoint_manager.py:166-181). -/
inductive Policy
  | fixedInterval (interval : Int)
  | specificSteps (steps : List Int)
  | continuous (minimumInterval : Option Int)
  | preemption
  | initialSave
  | fn (f : Int → Option Int → Bool)
  | any (policies : List Policy)

/-- `_get_should_save_result`, save_decision_policy.py:235-242. -/
def continuousResult (minimumInterval : Option Int) (c : Ckpt) (previous : List Ckpt) (ctx : Ctx) :
    Bool :=
  if ctx.inProgress then false
  else match previous.getLast?, minimumInterval with
    | none, _ => true
    | _, none => true
    | some p, some m => decide (c.time - p.time ≥ m)

mutual
/-- `SaveDecisionPolicy.should_save` of each policy: FixedIntervalPolicy
save_decision_policy.py:119-135, SpecificStepsPolicy 163-179, ContinuousCheckpointingPolicy 227-272,
PreemptionCheckpointingPolicy 300-316, InitialSavePolicy 338-353, AnySavePolicy 379-399,
_ShouldSaveFnPolicy checkpoint_manager.py:172-181. -/
def shouldSave (c : Ckpt) (previous : List Ckpt) (ctx : Ctx) : Policy → Except Err Bool
  | .fixedInterval i => if i = 0 then .error .zeroDivision else .ok (decide (c.step % i = 0))
  | .specificSteps s => .ok (s.contains c.step)
  | .continuous m => .ok (continuousResult m c previous ctx)
  | .preemption => .ok ctx.preempted
  | .initialSave => .ok previous.isEmpty
  | .fn f => .ok (f c.step (previous.getLast?.map (·.step)))
  | .any ps => anyShouldSave c previous ctx ps

/-- The short-circuiting `any(policy.should_save(...) for policy in policies)`,
save_decision_policy.py:396-399. -/
def anyShouldSave (c : Ckpt) (previous : List Ckpt) (ctx : Ctx) : List Policy → Except Err Bool
  | [] => .ok false
  | p :: ps =>
    match shouldSave c previous ctx p with
    | .error e => .error e
    | .ok true => .ok true
    | .ok false => anyShouldSave c previous ctx ps
end

/-- The options read by `_get_default_save_decision_policy`, after `__post_init__`
(checkpoint_manager.py:416-515): `save_on_steps` is always a set by then. -/
structure SaveOptions where
  shouldSaveFn : Option (Int → Option Int → Bool)
  saveIntervalSteps : Option Int
  saveOnSteps : List Int

/-- `_get_default_save_decision_policy`, checkpoint_manager.py:184-209. -/
def defaultPolicy (o : SaveOptions) : Policy :=
  match o.shouldSaveFn with
  | some f => .any [.fn f, .preemption]
  | none =>
    .any ((match o.saveIntervalSteps with | some i => [.fixedInterval i] | none => []) ++
      [.specificSteps o.saveOnSteps, .preemption, .initialSave])

/-- A run of attempts against one policy, every accepted attempt being appended to the list of
previous checkpoints (what `CheckpointManager` does with a policy that preserves every checkpoint:
checkpoint_manager.py:1246-1250 and 1542).  Returns the final list of checkpoints. -/
def runAttempts (p : Policy) (previous : List Ckpt) : List (Ckpt × Ctx) → Except Err (List Ckpt)
  | [] => .ok previous
  | (c, ctx) :: rest =>
    match shouldSave c previous ctx p with
    | .error e => .error e
    | .ok true => runAttempts p (previous ++ [c]) rest
    | .ok false => runAttempts p previous rest

/-! ### The multi-host broadcast of `ContinuousCheckpointingPolicy` -/

/-- What one process does, save_decision_policy.py:244-263: the primary first sets the key and then
all read it.  `pc` counts completed actions. -/
structure HostSt where
  pc : Nat
  result : Option Bool
deriving DecidableEq, Repr

/-- The key-value store cell for this operation and the processes. -/
structure BcastSt where
  cell : Option Bool
  hosts : List HostSt
deriving DecidableEq, Repr

/-- All hosts start, the key is absent (it contains a fresh operation id, lines 248-249). -/
def bcastInit (n : Nat) : BcastSt := ⟨none, List.replicate n ⟨0, none⟩⟩

/-- One scheduling step of host `h` (save_decision_policy.py:252-263): the primary (index `primary`)
writes its own local decision, then reads; others only read; a read of an absent key blocks (the
state is unchanged).  `localDecision h` is what `_get_should_save_result` would give on host `h`. -/
def bcastStep (primary : Nat) (localDecision : Nat → Bool) (s : BcastSt) (h : Nat) : BcastSt :=
  match s.hosts[h]? with
  | none => s
  | some hs =>
    match hs.pc with
    | 0 =>
      if h = primary then ⟨some (localDecision h), s.hosts.set h ⟨1, none⟩⟩
      else ⟨s.cell, s.hosts.set h ⟨1, none⟩⟩
    | 1 =>
      match s.cell with
      | none => s
      | some v => ⟨s.cell, s.hosts.set h ⟨2, some v⟩⟩
    | _ => s

end Verif.SavePolicy
