import Verif.Assoc

/-!
# Model of the in-process key-value signaling client and the signals contract

Models `ThreadSafeKeyValueSignalingClient`
(`/repo/checkpoint/orbax/checkpoint/_src/futures/signaling_client.py:216-338`) and
`AwaitableSignalsContract` (`/repo/checkpoint/orbax/checkpoint/_src/futures/future.py:36-157`).
Strings are lists of characters.  Every method body of the client runs under one lock, hence is one atomic
step; a blocking get is a sequence of such steps, between which other threads may act.
Simplifications: time is counted in ticks; `key_value_dir_get`, which does not take the lock, is modelled as
atomic too; the JAX distributed client is not modelled.
-/

namespace Verif.Futures.KV

open Verif

abbrev Str := List Char
abbrev Data := List (Str × Str)

/-- `key.endswith('/')`. -/
def isDir (k : Str) : Bool := k.getLast? == some '/'

/-- `key_value_set`, signaling_client.py:235-262; `none`: `KeyError`. -/
def set (d : Data) (k v : Str) (allowOverwrite : Bool) : Option Data :=
  if k ∈ Assoc.keys d ∧ allowOverwrite = false then none else some (Assoc.put d k v)

/-- `key_value_try_get`, signaling_client.py:290-300. -/
def tryGet (d : Data) (k : Str) : Option Str := Assoc.get d k

/-- `key_value_delete`, signaling_client.py:302-324. -/
def delete (d : Data) (k : Str) : Data :=
  if isDir k then d.filter fun p => !(k == p.1 || k.isPrefixOf p.1) else Assoc.del d k

/-- `key_value_dir_get`, signaling_client.py:326-344; `none`: `ValueError`. -/
def dirGet (d : Data) (k : Str) : Option (List (Str × Str)) :=
  if isDir k then some (d.filter fun p => k == p.1 || k.isPrefixOf p.1) else none

/-! ### Blocking get -/

/-- State of a call of `blocking_key_value_get`: asleep in `Condition.wait`; notified but not yet holding
the lock; returned; timed out. -/
inductive Status | sleeping | notified | returned (v : Str) | timedOut
deriving DecidableEq, Repr

/-- A call of `blocking_key_value_get`. -/
structure Getter where
  key : Str
  deadline : Nat
  status : Status
deriving DecidableEq, Repr

/-- Completed operations that change the data, for the specification. -/
inductive Op | set (k v : Str) | delete (k : Str)
deriving DecidableEq, Repr

/-- The client and its callers. -/
structure World where
  data : Data
  now : Nat
  getters : List Getter
  /-- operations, oldest first -/
  log : List Op
deriving DecidableEq, Repr

/-- Events. -/
inductive Ev
  | tick
  | set (k v : Str) (allowOverwrite : Bool)
  | delete (k : Str)
  /-- a thread calls `blocking_key_value_get(k, timeout)` -/
  | get (k : Str) (timeout : Nat)
  /-- a notified getter acquires the lock -/
  | wake (i : Nat)
  /-- the wait of a sleeping getter times out -/
  | expire (i : Nat)
deriving DecidableEq, Repr

def init : World := ⟨[], 0, [], []⟩

/-- The loop test of `blocking_key_value_get`, signaling_client.py:280-288: return if the key is there; else
wait for what remains of the time, which is no wait at all if the time is up (`Condition.wait` with a timeout
that is not positive comes back at once, and the key is still missing). -/
def observe (d : Data) (now : Nat) (g : Getter) : Getter :=
  match Assoc.get d g.key with
  | some v => { g with status := .returned v }
  | none => if now < g.deadline then { g with status := .sleeping } else { g with status := .timedOut }

/-- `notify_all`, signaling_client.py:262. -/
def notify (g : Getter) : Getter := match g.status with | .sleeping => { g with status := .notified } | _ => g

/-- One event; `none`: not possible. -/
def step (w : World) : Ev → Option World
  | .tick => some { w with now := w.now + 1 }
  | .set k v ow => match set w.data k v ow with
    | none => some w
    | some d => some { w with data := d, getters := w.getters.map notify, log := w.log ++ [.set k v] }
  | .delete k => some { w with data := delete w.data k, log := w.log ++ [.delete k] }
  | .get k timeout => some { w with getters := w.getters ++ [observe w.data w.now ⟨k, w.now + timeout, .sleeping⟩] }
  | .wake i => match w.getters[i]? with
    | some g => if g.status = .notified then some { w with getters := w.getters.set i (observe w.data w.now g) } else none
    | none => none
  | .expire i => match w.getters[i]? with
    | some g => if g.status = .sleeping ∧ g.deadline ≤ w.now then
        some { w with getters := w.getters.set i (observe w.data w.now g) } else none
    | none => none

/-- Reachable worlds. -/
inductive Reach : World → Prop
  | init : Reach init
  | step (w w' : World) (e : Ev) : Reach w → step w e = some w' → Reach w'

/-! ### The contract of awaitable signals -/

/-- `HandlerAwaitableSignal`, synchronization.py:30-49. -/
inductive Sig | contract | stepDirectoryCreation | itemDirectoryCreation
deriving DecidableEq, Repr

/-- The values of the enum, synchronization.py:46-48. -/
def Sig.value : Sig → Str
  | .contract => "awaitable_signals_contract".toList
  | .stepDirectoryCreation => "step_directory_creation".toList
  | .itemDirectoryCreation => "item_directory_creation".toList

/-- `HandlerAwaitableSignal(value)`; `none`: `ValueError`. -/
def Sig.ofValue (v : Str) : Option Sig :=
  if v = Sig.contract.value then some .contract
  else if v = Sig.stepDirectoryCreation.value then some .stepDirectoryCreation
  else if v = Sig.itemDirectoryCreation.value then some .itemDirectoryCreation
  else none

/-- `f'{prefix}_{operation_id}/'`, future.py:59-61, 148-150. -/
def opDir (op : Str) : Str := "awaitable_signals_contract_".toList ++ op ++ ['/']

/-- `get_unique_awaitable_singal_key`, future.py:44-61. -/
def sigKey (op : Str) (s : Sig) : Str := opDir op ++ s.value

/-- `','.join`. -/
def join : List Str → Str
  | [] => []
  | [s] => s
  | s :: ss => s ++ ',' :: join ss

/-- `str.split(',')`. -/
def split : Str → List Str
  | [] => [[]]
  | c :: cs => if c = ',' then [] :: split cs else match split cs with
    | [] => [[c]]
    | s :: ss => (c :: s) :: ss

/-- `get_awaitable_signals_from_contract`, future.py:63-99; `none`: `ValueError`. -/
def getContract (d : Data) (op : Str) : Option (List Sig) :=
  match tryGet d (sigKey op .contract) with
  | none => some []
  | some vs => (split vs).mapM Sig.ofValue

/-- `add_to_awaitable_signals_contract`, future.py:101-138; `none`: raises. -/
def addContract (d : Data) (op : Str) (signals : List Sig) : Option Data :=
  if signals = [] then some d
  else match getContract d op with
    | none => none
    | some cur => set d (sigKey op .contract) (join ((cur ++ signals).map Sig.value)) true

/-- `remove_all_awaitable_signals`, future.py:140-157. -/
def removeAll (d : Data) (op : Str) : Data := delete d (opDir op)

/-- One signal of `set_signals`, future.py:268-289. -/
def setSignal (d : Data) (op : Str) (s : Sig) : Option Data :=
  set d (sigKey op s) "signal_action_success".toList true

/-- Would `wait_for_signals` (future.py:242-265) go through at once? -/
def isSet (d : Data) (op : Str) (s : Sig) : Bool := (tryGet d (sigKey op s)).isSome

end Verif.Futures.KV
