import Verif.Assoc

/-!
# Handing the leaves of a tree to their type handlers in batches

Models `batched_serialization_requests` and `_filter_batch_requests`
(_src/handlers/base_pytree_checkpoint_handler.py:98-168 and 342-369), `BatchRequest` and
`AsyncIoEngine` (_src/serialization/async_io_engine.py:152-240) and how the results are put
together again (`_maybe_deserialize`, base_pytree_checkpoint_handler.py:793-821).

The leaves are given in the order of the tree. Exceptions are `none`.
-/

namespace Verif.Handlers.Batches

/-- What is known of the argument of a leaf: `SaveArgs`, `RestoreArgs` with the type asked
for, an empty node, something else (base_pytree_checkpoint_handler.py:117-142). -/
inductive Arg (T A : Type)
  | save (a : A)
  | restore (type : Option T) (a : A)
  | empty
  | other

/-- A leaf: its key, the value to save or the metadata of the stored one, with the type of
either and whether that is an empty node, and the `ParamInfo` with its `skip_deserialize`. -/
structure Leaf (K T V I A : Type) where
  key : K
  value : V
  type : T
  emptyValue : Bool
  info : I
  skip : Bool
  arg : Arg T A

/-- `TypeHandlerRegistry.get` and `is_empty_typestr`. -/
structure Registry (T H : Type) where
  get : T → Option H
  isEmpty : T → Bool

/-- `BatchRequest`, async_io_engine.py:152-172. -/
structure Request (H K V I B : Type) where
  handler : H
  keys : List K
  values : List V
  infos : List I
  args : List B

variable {K T V I A H R : Type}

/-- The handler of a leaf, base_pytree_checkpoint_handler.py:113-152: `some none` is a leaf
that is left out. -/
def handlerOf (reg : Registry T H) (l : Leaf K T V I A) : Option (Option H) :=
  if l.skip then some none
  else match l.arg with
    | .empty => some none
    | .other => none
    | .restore t _ =>
      if reg.isEmpty (t.getD l.type) then some none
      else (reg.get (t.getD l.type)).map some
    | .save _ =>
      if l.emptyValue then some none
      else (reg.get l.type).map some

/-- One more leaf in the batch of its handler, base_pytree_checkpoint_handler.py:154-162; a
dictionary keeps the order in which its keys came. -/
def add [DecidableEq H] (h : H) (l : Leaf K T V I A) :
    List (Request H K V I (Arg T A)) → List (Request H K V I (Arg T A))
  | [] => [⟨h, [l.key], [l.value], [l.info], [l.arg]⟩]
  | r :: rs =>
    if r.handler = h then
      ⟨h, r.keys ++ [l.key], r.values ++ [l.value], r.infos ++ [l.info], r.args ++ [l.arg]⟩ :: rs
    else r :: add h l rs

/-- `batched_serialization_requests`, base_pytree_checkpoint_handler.py:98-168. -/
def batch [DecidableEq H] (reg : Registry T H) :
    List (Leaf K T V I A) → List (Request H K V I (Arg T A)) →
      Option (List (Request H K V I (Arg T A)))
  | [], g => some g
  | l :: ls, g => match handlerOf reg l with
    | none => none
    | some none => batch reg ls g
    | some (some h) => batch reg ls (add h l g)

/-- The entries of a request: `zip` of its lists. -/
def Request.items {B : Type} (r : Request H K V I B) : List (K × V × I × B) :=
  r.keys.zip (r.values.zip (r.infos.zip r.args))

/-- `execute_save`, async_io_engine.py:205-226: what every handler is given. -/
def executeSave {B : Type} (rs : List (Request H K V I B)) : List (H × List (V × I × B)) :=
  rs.map fun r => (r.handler, r.values.zip (r.infos.zip r.args))

/-- `execute_restore`, async_io_engine.py:228-240: the results, batch by batch; an error of
any handler is raised. -/
def executeRestore {B : Type} (deserialize : H → List (I × B) → Option (List R)) :
    List (Request H K V I B) → Option (List (List R))
  | [] => some []
  | r :: rs => do
    let x ← deserialize r.handler (r.infos.zip r.args)
    let xs ← executeRestore deserialize rs
    return x :: xs

/-- The results under their keys, base_pytree_checkpoint_handler.py:818-821. -/
def collect [DecidableEq K] {B : Type} (rs : List (Request H K V I B)) (xs : List (List R)) :
    List (K × R) :=
  (rs.zip xs).foldl (fun d p =>
    (p.1.keys.zip p.2).foldl (fun d q => Assoc.put d q.1 q.2) d) []

/-- Restoring the leaves of a tree, base_pytree_checkpoint_handler.py:806-821. -/
def restore [DecidableEq H] [DecidableEq K] (reg : Registry T H)
    (deserialize : H → List (I × Arg T A) → Option (List R)) (ls : List (Leaf K T V I A)) :
    Option (List (K × R)) := do
  let rs ← batch reg ls []
  let xs ← executeRestore deserialize rs
  return collect rs xs

/-- `_filter_batch_requests`, base_pytree_checkpoint_handler.py:342-369: the entries once for
every addition that is a prefix of their key; batches that end up empty are left out. -/
def filterRequests {N B : Type} [DecidableEq N] (additions : List (List N))
    (rs : List (Request H (List N) V I B)) : List (Request H (List N) V I B) :=
  rs.filterMap fun r =>
    let items := r.items.flatMap fun x =>
      (additions.filter fun a => decide (a = x.1.take a.length)).map fun _ => x
    if items.isEmpty then none
    else some ⟨r.handler, items.map (·.1), items.map (·.2.1), items.map (·.2.2.1),
      items.map (·.2.2.2)⟩

end Verif.Handlers.Batches
