import Verif.Futures.KV

/-!
# Model of futures that wait for and send signals

Models `_SignalingThread`, `CommitFuture` and `CommitFutureAwaitingContractedSignals`
(`/repo/checkpoint/orbax/checkpoint/_src/futures/future.py:292-540`) as a transition system: any number of
futures run concurrently with each other and with other code that sets signals, extends contracts and
removes the signals of an operation.
Simplifications: the key-value store is abstracted to "which signals of which operation are set, and what is
its contract" (`Verif.Futures.KV`, theorems `C27_contract_add`, `C27_set_signal`, `C27_remove_all`, show that
the string keys behave that way); waiting for a signal may time out (raise) at any moment.
-/

namespace Verif.Futures.Signals

open KV (Sig)

/-- Where the thread of a future is, `_SignalingThread.run`, future.py:359-386: not started; still to wait
for these signals; running its body; still to send these signals; the same in the exception handler; ended. -/
inductive Pc
  | begin
  | waiting (rest : List Sig)
  | body
  | sending (rest : List Sig)
  | sendingCancelled (rest : List Sig)
  | finished
deriving DecidableEq, Repr

/-- `self._exception`. -/
inductive Exc | cancelled | error
deriving DecidableEq, Repr

/-- A future. -/
structure Fut where
  op : Nat
  recv : List Sig
  send : List Sig
  pc : Pc
  /-- `self._cancelled` -/
  cancelled : Bool
  exc : Option Exc
deriving DecidableEq, Repr

/-- Observable events. -/
inductive Event
  /-- a signal of an operation was set, by a future or by other code -/
  | signalled (op : Nat) (s : Sig) (by_ : Option Nat)
  /-- signals were added to the contract of an operation -/
  | contracted (op : Nat) (l : List Sig)
  /-- the signals of an operation were removed -/
  | removed (op : Nat)
  /-- a future that awaits the contracted signals was created -/
  | created (i : Nat)
  | bodyStart (i : Nat)
  | bodyOk (i : Nat)
  | cancelRequested (i : Nat)
  /-- the body, or waiting, raised `CancelledError` -/
  | cancelledError (i : Nat)
deriving DecidableEq, Repr

structure State where
  fut : Nat → Option Fut
  isSet : Nat → Sig → Bool
  contract : Nat → List Sig
  log : List Event

inductive Outcome | ok | raise | cancelledError
deriving DecidableEq, Repr

inductive Ev
  /-- `CommitFuture(..., receive_signals, send_signals)` -/
  | create (i op : Nat) (recv send : List Sig)
  /-- `CommitFutureAwaitingContractedSignals(..., send_signals)` -/
  | createAwaiting (i op : Nat) (send : List Sig)
  | run (i : Nat) (o : Outcome)
  | cancel (i : Nat)
  | signal (op : Nat) (s : Sig)
  | addContract (op : Nat) (l : List Sig)
  | removeAll (op : Nat)

def init : State := ⟨fun _ => none, fun _ _ => false, fun _ => [], []⟩

def upd {α : Type} (f : Nat → α) (i : Nat) (v : α) : Nat → α := fun j => if j = i then v else f j

/-- Set a signal. -/
def setSig (m : Nat → Sig → Bool) (op : Nat) (s : Sig) : Nat → Sig → Bool :=
  fun op' s' => if op' = op ∧ s' = s then true else m op' s'

/-- Replace future `i`, appending to the log. -/
def put (st : State) (i : Nat) (f : Fut) (evs : List Event) : State :=
  { st with fut := upd st.fut i (some f), log := st.log ++ evs }

/-- Future `i` sends the signal `s` and goes on as `f`. -/
def sendSig (st : State) (i : Nat) (f : Fut) (s : Sig) : State :=
  { st with fut := upd st.fut i (some f), isSet := setSig st.isSet f.op s, log := st.log ++ [.signalled f.op s (some i)] }

/-- The `except` clause of `run`, future.py:369-386: a cancellation still sends the signals. -/
def onException (st : State) (i : Nat) (f : Fut) (isCancelledError : Bool) : State :=
  if f.cancelled || isCancelledError then
    put st i { f with exc := some .cancelled, pc := .sendingCancelled f.send }
      (if isCancelledError then [.cancelledError i] else [])
  else put st i { f with exc := some .error, pc := .finished } []

/-- `_SignalingThread.run`, future.py:359-386, one step at a time; `none`: blocked or ended. -/
def runStep (st : State) (i : Nat) (f : Fut) (o : Outcome) : Option State :=
  match f.pc, o with
  | .begin, .ok => some (put st i { f with pc := if f.cancelled then .finished else .waiting f.recv } [])
  | .begin, _ => none
  | .waiting (s :: rest), .ok => if st.isSet f.op s then some (put st i { f with pc := .waiting rest } []) else none
  | .waiting [], .ok =>
    if f.cancelled then some (put st i { f with pc := .finished } [])
    else some (put st i { f with pc := .body } [.bodyStart i])
  | .body, .ok => some (put st i { f with pc := .sending f.send } [.bodyOk i])
  | .sending (s :: rest), .ok => some (sendSig st i { f with pc := .sending rest } s)
  | .sending [], .ok => some (put st i { f with pc := .finished } [])
  | .sendingCancelled (s :: rest), .ok => some (sendSig st i { f with pc := .sendingCancelled rest } s)
  | .sendingCancelled [], .ok => some (put st i { f with pc := .finished } [])
  | .sendingCancelled _, _ => some (put st i { f with pc := .finished } [])
  | .finished, _ => none
  | _, .raise => some (onException st i f false)
  | _, .cancelledError => some (onException st i f true)

/-- One event; `none`: not possible. -/
def step (st : State) : Ev → Option State
  | .create i op recv send => match st.fut i with
    | none => some (put st i ⟨op, recv, send, .begin, false, none⟩ [])
    | some _ => none
  | .createAwaiting i op send => match st.fut i with
    | none => some (put st i ⟨op, st.contract op, send, .begin, false, none⟩ [.created i])
    | some _ => none
  | .run i o => match st.fut i with
    | none => none
    | some f => runStep st i f o
  | .cancel i => match st.fut i with
    | none => none
    | some f => some (put st i { f with cancelled := true } [.cancelRequested i])
  | .signal op s => some { st with isSet := setSig st.isSet op s, log := st.log ++ [.signalled op s none] }
  | .addContract op l => some { st with contract := upd st.contract op (st.contract op ++ l), log := st.log ++ [.contracted op l] }
  | .removeAll op => some { st with contract := upd st.contract op [], isSet := fun op' s => if op' = op then false else st.isSet op' s, log := st.log ++ [.removed op] }

inductive Reach : State → Prop
  | init : Reach init
  | step (st st' : State) (e : Ev) : Reach st → step st e = some st' → Reach st'

/-- What `result()` does once the thread has ended, `join` and `result`, future.py:420-437. -/
inductive Result | ok | cancelledError | error
deriving DecidableEq, Repr

/-- future.py:425-437, for a thread that has ended. -/
def result (f : Fut) : Option Result :=
  if f.pc = .finished then
    some (if f.cancelled || f.exc == some .cancelled then .cancelledError
      else match f.exc with | some _ => .error | none => .ok)
  else none

end Verif.Futures.Signals
