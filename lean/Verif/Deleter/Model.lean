/-!
# Model of the background deleter

Models `ThreadedCheckpointDeleter`, `/repo/checkpoint/orbax/checkpoint/_src/path/deleter.py:383-449`, as a
transition system: the user's thread, which issues `delete` calls and then `close`, and the worker
thread.  Each transition is one step of one of the two threads, and any interleaving is allowed.  What a
single deletion does to the storage is modelled in `Verif.Store` (`StandardCheckpointDeleter.delete`);
here it is only known whether it raises (`raises`).
-/

namespace Verif.Deleter

/-- The user's thread: issuing requests; in `close` after `is_alive()` was true (deleter.py:442); joining
(444); `close` returned. -/
inductive Phase | issuing | aliveSeen | joining | closed
deriving DecidableEq, Repr

/-- The worker thread: about to read the queue (deleter.py:423), executing a deletion (426), exited. -/
inductive Worker | idle | busy (s : Int) | exited
deriving DecidableEq, Repr

/-- Shared state. -/
structure State where
  /-- requests the user's thread has still to issue before it calls `close` -/
  todo : List Int
  phase : Phase
  queue : List Int
  worker : Worker
  /-- `self._exception`: the step whose deletion raised -/
  exc : Option Int
  /-- deletions carried out, in order -/
  done : List Int
deriving DecidableEq, Repr

/-- Which thread moves. -/
inductive Thread | user | worker
deriving DecidableEq, Repr

/-- The constructor, deleter.py:386-417. -/
def init (reqs : List Int) : State := ⟨reqs, .issuing, [], .idle, none, []⟩

/-- A step of the user's thread: `delete` (deleter.py:432-433) or `close` (440-449).  `none`: the thread is
blocked (in `join`) or has finished. -/
def userStep (st : State) : Option State :=
  match st.phase with
  | .issuing => match st.todo with
    | s :: rest => some { st with todo := rest, queue := st.queue ++ [s] }
    | [] => if st.worker = .exited then some { st with phase := .closed }
            else some { st with phase := .aliveSeen }
  | .aliveSeen => some { st with phase := .joining, queue := st.queue ++ [-1] }
  | .joining => if st.worker = .exited then some { st with phase := .closed } else none
  | .closed => none

/-- A step of the worker thread, `_delete_thread_run`, deleter.py:419-430.  `none`: blocked on the empty
queue, or exited. -/
def workerStep (raises : Int → Bool) (st : State) : Option State :=
  match st.worker with
  | .idle => match st.queue with
    | s :: q => if s < 0 then some { st with worker := .exited, queue := q }
                else some { st with worker := .busy s, queue := q }
    | [] => none
  | .busy s => if raises s then some { st with worker := .exited, exc := some s }
               else some { st with worker := .idle, done := st.done ++ [s] }
  | .exited => none

/-- One step. -/
def step (raises : Int → Bool) (st : State) : Thread → Option State
  | .user => userStep st
  | .worker => workerStep raises st

/-- The states reachable under some schedule. -/
inductive Reach (raises : Int → Bool) (reqs : List Int) : State → Prop
  | init : Reach raises reqs (init reqs)
  | step (st st' : State) (t : Thread) : Reach raises reqs st → step raises st t = some st' → Reach raises reqs st'

/-- What `close` reports once it has returned: the stored exception, deleter.py:446-447. -/
def closeRaises (st : State) : Option Int := st.exc

end Verif.Deleter
