import Verif.Py

/-!
# Model of the checkpoint preservation policies

Models `/repo/checkpoint/orbax/checkpoint/_src/checkpoint_managers/preservation_policy.py`.

Simplifications: steps and times are integers (times are ticks of a clock, a
`datetime.timedelta` is a number of ticks); the value of the user's metric function on the
checkpoint's metrics is an integer (any totally ordered type without NaN would do);
logging (`_log_preservation_decision`, lines 47-67) is dropped.
-/

namespace Verif.Policies

open Verif

/-- `PolicyCheckpointInfo` (`_src/checkpoint_managers/policy_checkpoint_info.py`): step, time and
metrics of a checkpoint.  `metric = none` is `metrics is None`; `metric = some v` abstracts
`get_metric_fn(metrics) = v`. -/
structure Ckpt where
  step : Int
  time : Int
  metric : Option Int
deriving DecidableEq, Repr

/-- The `ValueError`s raised by the policies. -/
inductive Err | intervalZero
deriving DecidableEq, Repr

/-- `PreserveAll.should_preserve`, preservation_policy.py:73-81. -/
def preserveAll (cs : List Ckpt) : List Bool := Py.rep true cs.length

/-- `LatestN.should_preserve`, preservation_policy.py:90-101. -/
def latestN (n : Option Int) (cs : List Ckpt) : List Bool :=
  match n with
  | none => Py.rep true cs.length
  | some n =>
    if (cs.length : Int) ≤ n then Py.rep true cs.length
    else Py.rep false (cs.length - n) ++ Py.rep true n

/-- Loop of `EveryNSeconds.should_preserve`, preservation_policy.py:120-127;
`last` is `last_preserved_checkpoint.time`. -/
def everyNSecondsLoop (interval : Int) (last : Int) : List Ckpt → List Bool
  | [] => []
  | c :: cs =>
    if c.time - last ≥ interval then true :: everyNSecondsLoop interval c.time cs
    else false :: everyNSecondsLoop interval last cs

/-- `EveryNSeconds.should_preserve`, preservation_policy.py:110-133. -/
def everyNSeconds (interval : Int) : List Ckpt → List Bool
  | [] => []
  | c :: cs => true :: everyNSecondsLoop interval c.time cs

/-- Loop of `EveryNSteps.should_preserve` with `exact_interval=False`,
preservation_policy.py:157-165 (positions after the first). -/
def everyNStepsLoop (interval : Int) (previous : Int) : List Ckpt → List Bool
  | [] => []
  | c :: cs =>
    if c.step - previous ≥ interval then true :: everyNStepsLoop interval c.step cs
    else false :: everyNStepsLoop interval previous cs

/-- The `max_to_keep` trimming shared by `EveryNSteps` (preservation_policy.py:167-171) and
`EveryNStepsClosest` (preservation_policy.py:229-233):
`if len(true_indices) > m: for i in true_indices[:-m]: result[i] = False`. -/
def trim (maxToKeep : Option Int) (result : List Bool) : List Bool :=
  match maxToKeep with
  | none => result
  | some m =>
    let idx := Py.trueIndices result
    if (idx.length : Int) > m then
      (Py.sliceTo idx (-m)).foldl (fun r i => r.set i false) result
    else result

/-- `EveryNSteps.should_preserve`, preservation_policy.py:144-179.  Python's `%` with a nonzero
divisor is zero exactly when the divisor divides, as for `Int.emod`. -/
def everyNSteps (interval : Int) (exact : Bool) (maxToKeep : Option Int) (cs : List Ckpt) :
    Except Err (List Bool) :=
  if interval = 0 then .error .intervalZero
  else
    let result :=
      if exact then cs.map fun c => decide (c.step % interval = 0)
      else match cs with
        | [] => []
        | c :: cs => true :: everyNStepsLoop interval c.step cs
    .ok (trim maxToKeep result)

/-- Python `round(a / b)` (round half to even), for `b ≠ 0`.  Exact rational arithmetic instead of
the code's float division (they agree while the quotient is exactly representable to within its
rounding; not for |step| beyond 2^53). -/
def roundDiv (a b : Int) : Int :=
  let a' := if b < 0 then -a else a
  let b' := if b < 0 then -b else b
  let q := a' / b'
  let r := a' % b'
  if 2 * r < b' then q
  else if 2 * r > b' then q + 1
  else if q % 2 = 0 then q else q + 1

/-- Python `abs`. -/
def pyAbs (a : Int) : Int := if a < 0 then -a else a

/-- `diff = abs(ckpt.step - k * self.interval_steps)`, preservation_policy.py:216. -/
def gridDiff (interval : Int) (c : Ckpt) : Int :=
  pyAbs (c.step - roundDiv c.step interval * interval)

/-- The dictionaries `best_indices`/`best_diffs` (preservation_policy.py:212-213), as one
association list `k ↦ (idx, diff)`; insertion order is irrelevant to the result. -/
abbrev Buckets := List (Int × Nat × Int)

/-- `d[k] = v` on an association list. -/
def Buckets.put (b : Buckets) (k : Int) (v : Nat × Int) : Buckets :=
  match b with
  | [] => [(k, v)]
  | (k', v') :: b => if k' = k then (k, v) :: b else (k', v') :: Buckets.put b k v

/-- `d.get(k)`. -/
def Buckets.find (b : Buckets) (k : Int) : Option (Nat × Int) :=
  match b with
  | [] => none
  | (k', v') :: b => if k' = k then some v' else Buckets.find b k

/-- One iteration of the bucket loop, preservation_policy.py:214-221. -/
def closestStep (interval : Int) (b : Buckets) (p : Ckpt × Nat) : Buckets :=
  let k := roundDiv p.1.step interval
  let diff := gridDiff interval p.1
  match b.find k with
  | none => b.put k (p.2, diff)
  | some (_, d) => if diff ≤ d then b.put k (p.2, diff) else b

/-- `EveryNStepsClosest.should_preserve`, preservation_policy.py:200-241. -/
def everyNStepsClosest (interval : Int) (maxToKeep : Option Int) (cs : List Ckpt) :
    Except Err (List Bool) :=
  if interval = 0 then .error .intervalZero
  else if cs = [] then .ok []
  else
    let best := cs.zipIdx.foldl (closestStep interval) []
    let result := (best.map (·.2.1)).foldl (fun r i => r.set i true) (Py.rep false cs.length)
    let result := result.set (cs.length - 1) true
    .ok (trim maxToKeep result)

/-- `CustomSteps.should_preserve`, preservation_policy.py:251-265. -/
def customSteps (steps : List Int) (cs : List Ckpt) : List Bool :=
  cs.map fun c => steps.contains c.step

/-- `np.any(rows, axis=0)` for rows of equal length, preservation_policy.py:283-287.
With no rows numpy returns the scalar `False`, so the method returns `False` rather than a list;
that case is `none` here. -/
def anyPolicy (rows : List (List Bool)) : Option (List Bool) :=
  match rows with
  | [] => none
  | r :: rs => some (rs.foldl (fun acc row => List.zipWith (· || ·) acc row) r)

/-- Sort key comparison used by `sorted(..., reverse=self.reverse)`; Python keeps the sort stable
in both directions. -/
def metricLe (reverse : Bool) (a b : Int × Nat) : Bool :=
  if reverse then decide (b.1 ≤ a.1) else decide (a.1 ≤ b.1)

/-- The `(metric, index)` pairs of the checkpoints that carry metrics,
preservation_policy.py:321-325. -/
def withMetrics (cs : List Ckpt) : List (Int × Nat) :=
  cs.zipIdx.filterMap fun p => p.1.metric.map fun m => (m, p.2)

/-- Indices of checkpoints without metrics, preservation_policy.py:326-330. -/
def withoutMetrics (cs : List Ckpt) : List Nat :=
  cs.zipIdx.filterMap fun p => match p.1.metric with | none => some p.2 | some _ => none

/-- `BestN.should_preserve`, preservation_policy.py:311-348. -/
def bestN (reverse : Bool) (n : Option Int) (keepWithout : Bool) (cs : List Ckpt) : List Bool :=
  match n with
  | none => Py.rep true cs.length
  | some n =>
    if (cs.length : Int) ≤ n then Py.rep true cs.length
    else if n = 0 then Py.rep false cs.length
    else
      let sorted := (withMetrics cs).mergeSort (metricLe reverse)
      let preserve := (Py.sliceFrom sorted (-n)).map (·.2)
      let preserve := if keepWithout then preserve ++ withoutMetrics cs else preserve
      (List.range cs.length).map fun i => preserve.contains i

/-- Search loop of `LatestDuration`, preservation_policy.py:373-377:
index of the first checkpoint with `now - time <= duration`. -/
def firstRecent (now duration : Int) : List Ckpt → Option Nat
  | [] => none
  | c :: cs => if now - c.time ≤ duration then some 0 else (firstRecent now duration cs).map (· + 1)

/-- `LatestDuration.should_preserve`, preservation_policy.py:363-389. -/
def latestDuration (now duration : Int) (cs : List Ckpt) : List Bool :=
  match firstRecent now duration cs with
  | none => Py.rep false cs.length
  | some i => Py.rep false i ++ Py.rep true (cs.length - i)

end Verif.Policies
