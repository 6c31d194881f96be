/-
The list of checkpoints of a manager, `CheckpointInfos`, shared by threads, and the lock with a timeout that guards
it, `TimeoutRLock`.

Modelled code: checkpoint/orbax/checkpoint/_src/metadata/checkpoint_info.py:66-149 (`CheckpointInfos`) and
checkpoint/orbax/checkpoint/_src/threading.py:28-67 (`TimeoutRLock`).

Any number of threads call the operations; the schedule interleaves their steps. A step is one access to the lock or
to a Python list, or one read of the attribute. The elements are of any type. Not modelled: the log messages,
`__getitem__`, `__len__`, `empty`, `size` and `__repr__`, which only read, and generators that are passed to other
threads.
-/

namespace Verif.Manager.Infos

variable {α : Type}

/-- The operations, checkpoint_info.py:87-143; `iter` is a `for` loop over the list. -/
inductive Op (α : Type) where
  | set (xs : List α)
  | append (x : α)
  | delete (p : α → Bool)
  | latest
  | iter

/-- What a thread does in one step. The operation of `store` is a note of what is being done and has no effect. -/
inductive Instr (α : Type) where
  /-- `TimeoutRLock.__enter__`, threading.py:53-62 -/
  | enter
  /-- `TimeoutRLock.__exit__`, threading.py:64-67 -/
  | exit
  /-- starts the loop of `delete_if`, checkpoint_info.py:130 -/
  | load (p : α → Bool)
  /-- the loop of `delete_if`, at an index of a list, checkpoint_info.py:130-134 -/
  | scan (p : α → Bool) (obj idx : Nat) (kept : List α)
  /-- `self._checkpoint_infos = list(checkpoint_infos)`, checkpoint_info.py:90 -/
  | store (op : Op α) (xs : List α)
  /-- reads `self._checkpoint_infos` to append to it, checkpoint_info.py:142 -/
  | fetch (x : α)
  /-- appends, checkpoint_info.py:142 -/
  | push (obj : Nat) (x : α)
  /-- `latest`, checkpoint_info.py:115 -/
  | last
  /-- starts a loop of the user, checkpoint_info.py:104 -/
  | loop
  /-- a loop of the user at an index of a list, after `seen`, checkpoint_info.py:104-105 -/
  | next (obj idx : Nat) (seen : List α)

/-- The steps of an operation, checkpoint_info.py:87-143. -/
def compile : Op α → List (Instr α)
  | .set xs => [.enter, .store (.set xs) xs, .exit]
  | .append x => [.fetch x]
  | .delete p => [.enter, .load p, .exit]
  | .latest => [.enter, .last, .exit]
  | .iter => [.enter, .loop, .exit]

/-- The list objects, the one the attribute refers to, the `RLock` (its owner and how often it is held), the flag
`_acquired`, and what each thread still has to do. -/
structure State (α : Type) where
  lists : List (List α)
  cur : Nat
  owner : Option Nat
  count : Nat
  flag : Bool
  code : Nat → List (Instr α)

/-- The new list, checkpoint_info.py:75-85. -/
def init (xs : List α) : State α := ⟨[xs], 0, none, 0, true, fun _ => []⟩

/-- The contents of a list object. -/
def obj (s : State α) (i : Nat) : List α := (s.lists[i]?).getD []

/-- What the list holds. -/
def content (s : State α) : List α := obj s s.cur

/-- A thread goes on with other steps. -/
def goto (s : State α) (t : Nat) (c : List (Instr α)) : State α := { s with code := fun u => if u = t then c else s.code u }

/-- An operation has taken effect. -/
structure Done (α : Type) where
  thread : Nat
  op : Op α
  answer : Option α

inductive Event (α : Type) where
  /-- a thread calls an operation; between the steps of a loop of the user it may do so too -/
  | call (t : Nat) (op : Op α)
  /-- a thread makes a step -/
  | tick (t : Nat)
  /-- a thread has waited for the lock too long -/
  | timeout (t : Nat)
  /-- a thread leaves a loop early, by `break` or by an exception -/
  | leave (t : Nat)

/-- Whether the user's code of a thread has control. -/
def ready : List (Instr α) → Bool
  | [] => true
  | .next .. :: _ => true
  | _ => false

/-- A step of a thread. -/
def tick (s : State α) (t : Nat) : State α × List (Done α) :=
  match s.code t with
  | [] => (s, [])
  | .enter :: r =>
    if s.owner = none ∨ s.owner = some t then (goto { s with owner := some t, count := s.count + 1, flag := true } t r, [])
    else (s, [])
  | .exit :: r =>
    if s.flag then
      if s.owner = some t then
        (goto { s with owner := if s.count = 1 then none else some t, count := s.count - 1 } t r, [])
      else (goto s t [], [])
    else (goto s t r, [])
  | .load p :: r => (goto s t (.scan p s.cur 0 [] :: r), [])
  | .scan p i idx kept :: r =>
    match (obj s i)[idx]? with
    | some x => (goto s t (.scan p i (idx + 1) (if p x then kept else kept ++ [x]) :: r), [])
    | none => (goto s t (.enter :: .store (.delete p) kept :: .exit :: r), [])
  | .store op xs :: r => (goto { s with lists := s.lists ++ [xs], cur := s.lists.length } t r, [⟨t, op, none⟩])
  | .fetch x :: r => (goto s t (.push s.cur x :: r), [])
  | .push i x :: r => (goto { s with lists := s.lists.set i (obj s i ++ [x]) } t r, [⟨t, .append x, none⟩])
  | .last :: r => (goto s t r, [⟨t, .latest, (content s).getLast?⟩])
  | .loop :: r => (goto s t (.next s.cur 0 [] :: r), [⟨t, .iter, none⟩])
  | .next i idx seen :: r =>
    match (obj s i)[idx]? with
    | some x => (goto s t (.next i (idx + 1) (seen ++ [x]) :: r), [])
    | none => (goto s t r, [])

/-- One event. On a timeout `_acquired` becomes `False` and `TimeoutError` is raised, threading.py:55-62. -/
def step (s : State α) : Event α → State α × List (Done α)
  | .call t op => if ready (s.code t) then (goto s t (compile op ++ s.code t), []) else (s, [])
  | .tick t => tick s t
  | .timeout t =>
    match s.code t with
    | .enter :: _ => if s.owner = none ∨ s.owner = some t then (s, []) else (goto { s with flag := false } t [], [])
    | _ => (s, [])
  | .leave t =>
    match s.code t with
    | .next _ _ _ :: r => (goto s t r, [])
    | .scan _ _ _ _ :: r => (goto s t r, [])
    | _ => (s, [])

def run (s : State α) : List (Event α) → State α
  | [] => s
  | e :: es => run (step s e).1 es

/-- The operations that took effect, in this order. -/
def effects (s : State α) : List (Event α) → List (Done α)
  | [] => []
  | e :: es => (step s e).2 ++ effects (step s e).1 es

end Verif.Manager.Infos
