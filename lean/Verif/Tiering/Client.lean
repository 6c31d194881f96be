/-!
# Tiering service: the client object

Models `checkpoint/orbax/checkpoint/experimental/tiering_service/client.py`: `TieringClient`'s
single active operation, its keep-alive task and its prefetch future.  All coroutines run on one
event loop (`client.py:163-178`), so what happens between two `await`s is one step; steps of
different calls interleave.  Assets, tier paths and storage paths are numbers; `pathOf` gives the
storage path of a tier path, as the server reports it.  Not modelled: connecting, credentials,
intervals between keep-alives.
-/
namespace Verif.Tiering.Client

/-- The state of an `asyncio.Future` for a prefetched path. -/
inductive Fut | pending | ok (path : Nat) | failed | cancelled
deriving DecidableEq, Repr

/-- A keep-alive task: for an asset being written (`_write_keep_alive_loop`, `client.py:271-303`) or
for a prefetched tier path (`_prefetch_keep_alive_loop`, `client.py:305-356`).  `ended` tells that the
task has left its loop because of an answer of the server. -/
structure Task where
  asset : Nat
  tp : Option Nat
  running : Bool := true
  ended : Bool := false
deriving DecidableEq, Repr

/-- A call in progress: `reserve` or `prefetch` that has passed `_check_active_operation` and awaits
its RPC (`client.py:392-402`, `:505-517`); `finalize` awaiting its RPC; a `prefetch` awaiting its
future (`client.py:551-553`). -/
inductive Call
  | reserving
  | prefetching
  | finalizing
  | awaiting (tp fut : Nat)
deriving DecidableEq, Repr

/-- The fields of `TieringClient`, `client.py:62-68`.  `tp` of `active_*` is not kept: it is only
written. -/
structure St where
  active : Option Nat := none
  path : Option Nat := none
  task : Option Nat := none
  fut : Option Nat := none
  tasks : List Task := []
  futs : List Fut := []
  calls : List Call := []
  /-- what the calls of `prefetch` have returned: the tier path asked for, the path returned -/
  returned : List (Nat × Nat) := []
deriving DecidableEq, Repr

/-- Answer of the server to a keep-alive, as far as the client tells answers apart
(`client.py:277-303`, `:313-356`): all is well, the copy is ready, or the asset is gone (or the
prefetch failed). -/
inductive Answer | ok | ready | gone
deriving DecidableEq, Repr

inductive Op
  /-- `reserve` up to its RPC -/
  | reserve
  /-- the RPC of the `k`th call in progress succeeds, with this asset and path -/
  | reserved (k asset path : Nat)
  | prefetch
  | prefetched (k asset tp : Nat) (ready : Bool)
  /-- the RPC of the `k`th call in progress fails -/
  | error (k : Nat)
  | finalize (asset : Nat)
  | finalized (k : Nat)
  | release
  | releasePath (path : Nat)
  | keepAlive (i : Nat) (a : Answer)
  /-- the `k`th call in progress, a `prefetch`, resumes after its future is done -/
  | resume (k : Nat)
deriving DecidableEq, Repr

/-- `Task.cancel`; the cancelled loops exit by `break`. -/
def cancelTask (s : St) : St :=
  match s.task with
  | some i => { s with tasks := s.tasks.modify i fun t => { t with running := false }, task := none }
  | none => s

/-- `_reset_active_state`, `client.py:234-238`. -/
def reset (s : St) : St := { s with active := none, path := none }

/-- A future is completed at most once (`not done()`). -/
def settle (f : Fut) (old : Fut) : Fut := if old = .pending then f else old

/-- `_async_release`, `client.py:573-581`.  A `prefetch` awaiting the cancelled future wakes up with
`CancelledError` before any later step of another call and then cancels the task and resets the state
again (`client.py:554-559`), which changes nothing more; it is removed here. -/
def release (s : St) : St :=
  let s1 := cancelTask s
  let s2 : St := match s1.fut with
    | some f => if s1.futs[f]? = some .pending then
        { s1 with futs := s1.futs.set f .cancelled, fut := none,
                  calls := s1.calls.filter fun c => match c with
                    | .awaiting _ f' => decide (f' ≠ f)
                    | _ => true }
      else s1
    | none => s1
  reset s2

/-- The current prefetch future gets a value unless it is done, `client.py:325-329`, `:342-346`. -/
def settleCurrent (s : St) (v : Fut) : St :=
  match s.fut with
  | some f => { s with futs := s.futs.modify f (settle v) }
  | none => s

/-- The keep-alive task leaves its loop. -/
def endTask (s : St) (i : Nat) : St :=
  { s with tasks := s.tasks.modify i fun t => { t with running := false, ended := true } }

/-- One answer to a keep-alive task, `client.py:271-356`. -/
def keepAlive (pathOf : Nat → Nat) (s : St) (i : Nat) (a : Answer) : St :=
  match s.tasks[i]? with
  | some t => if t.running then
      match t.tp, a with
      | none, .gone => endTask s i
      | none, _ => s
      | some _, .ok => s
      | some p, .ready => settleCurrent s (.ok (pathOf p))
      | some _, .gone => endTask (settleCurrent s .failed) i
    else s
  | none => s

def step (pathOf : Nat → Nat) (s : St) : Op → St
  -- `_check_active_operation`, `client.py:240-249`; `_async_reserve`, `:385-427`
  | .reserve => if s.active.isSome then s else { s with calls := s.calls ++ [.reserving] }
  | .reserved k a p => match s.calls[k]? with
    | some .reserving => { s with
        calls := s.calls.eraseIdx k
        active := some a, path := some p
        tasks := s.tasks ++ [{ asset := a, tp := none }], task := some s.tasks.length }
    | _ => s
  -- `_async_prefetch`, `client.py:494-559`
  | .prefetch => if s.active.isSome then s else { s with calls := s.calls ++ [.prefetching] }
  | .prefetched k a p ready => match s.calls[k]? with
    | some .prefetching => { s with
        calls := s.calls.set k (.awaiting p s.futs.length)
        active := some a, path := some (pathOf p)
        futs := s.futs ++ [if ready then .ok (pathOf p) else .pending], fut := some s.futs.length
        tasks := s.tasks ++ [{ asset := a, tp := some p }], task := some s.tasks.length }
    | _ => s
  | .error k => match s.calls[k]? with
    | some .reserving | some .prefetching => { s with calls := s.calls.eraseIdx k }
    -- the `finally` of `_async_finalize`, `client.py:454-458`
    | some .finalizing => reset (cancelTask { s with calls := s.calls.eraseIdx k })
    | _ => s
  -- `_async_finalize`, `client.py:443-458`: the given asset is not compared with the active one
  | .finalize _ => { s with calls := s.calls ++ [.finalizing] }
  | .finalized k => match s.calls[k]? with
    | some .finalizing => reset (cancelTask { s with calls := s.calls.eraseIdx k })
    | _ => s
  | .release => release s
  -- `release_path`, `client.py:590-594`
  | .releasePath p => if s.path = some p ∨ s.active.isSome then release s else s
  | .keepAlive i a => keepAlive pathOf s i a
  | .resume k => match s.calls[k]? with
    | some (.awaiting p f) => match s.futs[f]? with
      | some (.ok q) => { s with calls := s.calls.eraseIdx k, returned := s.returned ++ [(p, q)] }
      -- an exception other than `CancelledError` passes through, `client.py:551-559`
      | some .failed => { s with calls := s.calls.eraseIdx k }
      | _ => s
    | _ => s

def run (pathOf : Nat → Nat) (s : St) : List Op → St
  | [] => s
  | o :: os => run pathOf (step pathOf s o) os

end Verif.Tiering.Client
