/-!
# Model of a value synchronised between processes

Models `MultihostSynchronizedValue`, `/repo/checkpoint/orbax/checkpoint/_src/futures/synchronization.py:69-135`, which
`CheckpointManager` uses for `is_saving_in_progress` (checkpoint_manager.py:917-921, 1473, 2099-2111, 2183).

The processes are the numbers below `n`.  Each has one thread that makes a list of `set` calls one after the other (in
the manager they come from the caller of `save` and from the finalization thread, which the next `save` joins first).
`get` may be called by any thread at any time; it is one step, possible when the lock is free.

A barrier has no number in its name: the k-th call in one process meets the k-th call in the others.  A barrier that
is not passed in time raises in the waiting process.

Not modelled: two threads of one process that call `set` at the same time.
-/

namespace Verif.Futures.SyncValue

/-- Where the setting thread of a process is: in no call; at the first barrier (synchronization.py:116-121); past it,
about to take the lock (122); with the lock, the value assigned, at the second barrier (123-129); a barrier has raised
(the lock is free again). -/
inductive Stage | idle | atStart | past | atEnd | failed
deriving DecidableEq, Repr

/-- A process. -/
structure Proc (V : Type) where
  /-- the number of `set` calls begun -/
  begun : Nat
  /-- the number of assignments to `self._value` -/
  writes : Nat
  stage : Stage
  /-- `self._value` -/
  val : V

/-- The state of all processes. -/
abbrev State (V : Type) := Nat → Proc V

/-- `__init__` in every process (synchronization.py:72-82). -/
def init {V : Type} (v : V) : State V := fun _ => ⟨0, 0, .idle, v⟩

/-- Replace one process. -/
def put {V : Type} (s : State V) (p : Nat) (x : Proc V) : State V := fun q => if q = p then x else s q

/-- One step of one process; `prog p` are the values that process `p` sets. -/
inductive Step {V : Type} (n : Nat) (prog : Nat → List V) : State V → State V → Prop
  /-- `set` is called and arrives at the first barrier (synchronization.py:112-121) -/
  | begin {s : State V} {p : Nat} (hp : p < n) (hs : (s p).stage = .idle) (hl : (s p).begun < (prog p).length) :
      Step n prog s (put s p { s p with stage := .atStart, begun := (s p).begun + 1 })
  /-- the first barrier is passed when all processes have arrived (116-121) -/
  | passStart {s : State V} {p : Nat} (hp : p < n) (hs : (s p).stage = .atStart)
      (hb : ∀ q, q < n → (s p).begun ≤ (s q).begun) : Step n prog s (put s p { s p with stage := .past })
  /-- the lock is taken and the value assigned (122-123) -/
  | write {s : State V} {p : Nat} {v : V} (hp : p < n) (hs : (s p).stage = .past)
      (hv : (prog p)[(s p).begun - 1]? = some v) :
      Step n prog s (put s p { s p with stage := .atEnd, writes := (s p).writes + 1, val := v })
  /-- the second barrier is passed when all processes have arrived; the lock is released and `set` returns (124-129) -/
  | passEnd {s : State V} {p : Nat} (hp : p < n) (hs : (s p).stage = .atEnd)
      (hb : ∀ q, q < n → (s p).writes ≤ (s q).writes) : Step n prog s (put s p { s p with stage := .idle })
  /-- the first barrier raises: the time is over (105) -/
  | lateStart {s : State V} {p : Nat} (hp : p < n) (hs : (s p).stage = .atStart) :
      Step n prog s (put s p { s p with stage := .failed })
  /-- the second barrier raises; leaving the `with` releases the lock (105, 122) -/
  | lateEnd {s : State V} {p : Nat} (hp : p < n) (hs : (s p).stage = .atEnd) :
      Step n prog s (put s p { s p with stage := .failed })

/-- Any number of steps. -/
inductive Steps {V : Type} (n : Nat) (prog : Nat → List V) : State V → State V → Prop
  | refl (s : State V) : Steps n prog s s
  | tail {s t u : State V} (h : Steps n prog s t) (h' : Step n prog t u) : Steps n prog s u

/-- `get` in process `p` can take the lock now and returns this value (synchronization.py:107-110). -/
inductive Get {V : Type} (s : State V) (p : Nat) : V → Prop
  | free (h : (s p).stage ≠ .atEnd) : Get s p (s p).val

end Verif.Futures.SyncValue
