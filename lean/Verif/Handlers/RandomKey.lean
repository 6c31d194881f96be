import Verif.Handlers.Json

/-!
# Random keys

Models `_src/handlers/random_key_checkpoint_handler.py`: a composite of an array (or a tree) and of JSON metadata (C101).

Simplifications: an implementation of random keys is a number, with the shape of its key data (`jax._src.prng.PRNGImpl`);
the array and the tree of the composite are restored as they were saved, but for tuples, which are lists when no target
is given (C41, C85, C88); `jax.random.key_data` and `wrap_key_data` behave as documented: they accept raw data only if it
is `uint32` and its shape ends in the key shape of the default implementation.
-/

namespace Verif.Handlers.RandomKey

open Verif.Handlers

structure Arr where
  shape : List Nat
  uint32 : Bool
  data : List Nat
deriving DecidableEq, Repr

/-- What may be given to the handler for JAX keys. -/
inductive Item where
  /-- a `jax.Array` with a key type: its implementation and its key data -/
  | typed (impl : Nat) (a : Arr)
  /-- a `jax.Array` of numbers -/
  | raw (a : Arr)
  /-- something else -/
  | other
deriving DecidableEq, Repr

inductive Err where
  | typeError
  | keyError
deriving DecidableEq, Repr

/-- The key shapes of the implementations and the default one (`jax_default_prng_impl`). -/
structure Jax where
  keyShape : Nat → List Nat
  dflt : Nat

/-- The check of `random_wrap`: the type, and the end of the shape. -/
def fits (j : Jax) (a : Arr) : Bool := a.uint32 && (j.keyShape j.dflt).isSuffixOf a.shape

/-- `jax.random.key_data`. -/
def keyData (j : Jax) : Item → Except Err Arr
  | .typed _ a => .ok a
  | .raw a => if fits j a then .ok a else .error .typeError
  | .other => .error .typeError

/-- `jax.random.wrap_key_data` without an implementation. -/
def wrapKeyData (j : Jax) (a : Arr) : Except Err Item :=
  if fits j a then .ok (.typed j.dflt a) else .error .typeError

/-- The metadata `{name: b}`, random_key_checkpoint_handler.py:200 and 266-268, as written (C101). -/
def flag (name : String) (b : Bool) : Option Json.Doc := Json.dumps (.dict (.cons (.str name) (.bool b) .nil))

/-- `metadata[name]`, random_key_checkpoint_handler.py:215 and 280. -/
def readFlag (name : String) (d : Json.Doc) : Except Err Bool :=
  match Json.loads d with
  | .dict (.cons (.str s) (.bool b) _) => if s = name then .ok b else .error .keyError
  | _ => .error .keyError

/-- What is saved: the item and its metadata, random_key_checkpoint_handler.py:125-132. -/
structure Saved (α : Type) where
  item : α
  metadata : Json.Doc

/-- `JaxRandomKeyCheckpointHandler.checkpoint_save_args`, random_key_checkpoint_handler.py:191-207: `key_data` is applied
to the data of a typed key once more. -/
def saveJax (j : Jax) (x : Item) : Except Err (Saved Arr) :=
  let go (typed : Bool) (a : Arr) : Except Err (Saved Arr) :=
    (keyData j (.raw a)).bind fun a =>
      match flag "typed" typed with
      | some d => .ok ⟨a, d⟩
      | none => .error .typeError
  match x with
  | .typed i a => (keyData j (.typed i a)).bind (go true)
  | .raw a => go false a
  | .other => .error .typeError

/-- `restore` and `post_restore`, random_key_checkpoint_handler.py:147-170 and 214-218. -/
def restoreJax (j : Jax) (s : Saved Arr) : Except Err Item :=
  (readFlag "typed" s.metadata).bind fun typed => if typed then wrapKeyData j s.item else .ok (.raw s.item)

/-! ### NumPy keys -/

mutual
/-- A state of a NumPy generator. -/
inductive Tree where
  | leaf (x : Nat)
  | tuple (ts : Trees)
  | list (ts : Trees)
  | dict (ts : Fields)
inductive Trees where
  | nil
  | cons (t : Tree) (r : Trees)
inductive Fields where
  | nil
  | cons (k : String) (t : Tree) (r : Fields)
end

mutual
/-- What a tree is restored as without a target (C41, C85): tuples are lists. -/
def plain : Tree → Tree
  | .leaf x => .leaf x
  | .tuple ts => .list (plainAll ts)
  | .list ts => .list (plainAll ts)
  | .dict fs => .dict (plainFields fs)
def plainAll : Trees → Trees
  | .nil => .nil
  | .cons t r => .cons (plain t) (plainAll r)
def plainFields : Fields → Fields
  | .nil => .nil
  | .cons k t r => .cons k (plain t) (plainFields r)
end

/-- `tuple(item)`: of a list or tuple its elements, of anything else not modelled. -/
def toTuple : Tree → Except Err Tree
  | .list ts => .ok (.tuple ts)
  | .tuple ts => .ok (.tuple ts)
  | _ => .error .typeError

/-- `NumpyRandomKeyCheckpointHandler.checkpoint_save_args`, random_key_checkpoint_handler.py:260-272. -/
def saveNumpy (t : Tree) : Except Err (Saved Tree) :=
  let legacy : Except Err Bool :=
    match t with
    | .tuple _ => .ok true
    | .dict _ => .ok false
    | _ => .error .typeError
  legacy.bind fun b =>
    match flag "legacy" b with
    | some d => .ok ⟨t, d⟩
    | none => .error .typeError

/-- `restore` and `post_restore`, random_key_checkpoint_handler.py:147-170 and 279-283. -/
def restoreNumpy (s : Saved Tree) : Except Err Tree :=
  (readFlag "legacy" s.metadata).bind fun legacy => if legacy then toTuple (plain s.item) else .ok (plain s.item)

end Verif.Handlers.RandomKey
