import Verif.Assoc
import Verif.Handlers.Composite

/-!
# Model of registering handlers, and of restoring with the handlers that a checkpoint names

Models `/repo/checkpoint/orbax/checkpoint/_src/handlers/handler_type_registry.py`, `register_with_handler` of
`/repo/checkpoint/orbax/checkpoint/checkpoint_args.py:74-119`, and the lookup of the handlers named in the metadata of a step in
`CompositeCheckpointHandler.restore` (composite_checkpoint_handler.py:807-816).  The restoration itself is that of `Verif.Handlers.Composite`.

A handler class is an object (`id`) with its module, qualified name and `typestr()` (checkpoint_handler.py:84-87, which classes may override and inherit).
-/

namespace Verif.HandlerTypes

open Verif.Assoc

/-- A handler class. -/
structure Cls where
  id : Nat
  module_ : String
  qualname : String
  typestr : String
deriving DecidableEq, Repr

/-- `_SAVE_ARG_TO_HANDLER` and `_RESTORE_ARG_TO_HANDLER`, checkpoint_args.py:65-69, and `_GLOBAL_HANDLER_TYPE_REGISTRY`, handler_type_registry.py:94. -/
structure Reg (A : Type) where
  save : List (A × Cls)
  restore : List (A × Cls)
  types : List (String × Cls)

/-- `HandlerTypeRegistry.add`, handler_type_registry.py:31-79: the registry and whether there was no exception. -/
def addType (t : List (String × Cls)) (c : Cls) : List (String × Cls) × Bool :=
  match Assoc.get t c.typestr with
  | none => (put t c.typestr c, true)
  | some p =>
    if ¬ (p.module_ = c.module_ ∧ p.qualname = c.qualname) then (t, false)
    else if p = c then (t, true)
    else (put t c.typestr c, true)

/-- `HandlerTypeRegistry.get`, handler_type_registry.py:81-91: `none` is a `KeyError`. -/
def getType (t : List (String × Cls)) (typestr : String) : Option Cls := Assoc.get t typestr

/-- A use of the decorator `register_with_handler(cls, for_save, for_restore)` on a class; `isArgs` says whether it is a subclass of `CheckpointArgs`. -/
structure Registration (A : Type) where
  args : A
  isArgs : Bool
  cls : Cls
  forSave : Bool
  forRestore : Bool

variable {A : Type} [DecidableEq A]

/-- `register_with_handler`, checkpoint_args.py:74-123. -/
def register (r : Reg A) (x : Registration A) : Reg A × Bool :=
  if !x.forSave && !x.forRestore then (r, false)
  else if !x.isArgs then (r, false)
  else
    ({ save := if x.forSave then put r.save x.args x.cls else r.save
       restore := if x.forRestore then put r.restore x.args x.cls else r.restore
       types := (addType r.types x.cls).1 }, (addType r.types x.cls).2)

/-- A history of registrations, whose exceptions are caught. -/
def registerAll (r : Reg A) (l : List (Registration A)) : Reg A := l.foldl (fun r x => (register r x).1) r

/-- What a program registered from its start on. -/
def program (l : List (Registration A)) : Reg A := registerAll ⟨[], [], []⟩ l

/-- The global registrations as `Verif.Handlers.Composite` sees them. -/
def Reg.global (r : Reg A) (constructs : Cls → Bool) : Composite.Global A Cls := ⟨r.save, r.restore, constructs⟩

/-- The handler class of an item by the name in the metadata of the step, composite_checkpoint_handler.py:807-816. -/
def typeOf (r : Reg A) (recorded : String → Option String) (item : String) : Option Cls := (recorded item).bind (getType r.types)

/-- `restore` without arguments of a new composite handler that was given no handlers: the items with the handlers used, and whether there was no exception. -/
def restoreAll (r : Reg A) (constructs : Cls → Bool) (default : A → Bool) (recorded : String → Option String) (existing : List String) (next : Nat) :
    List (String × Composite.Handler Cls) × Bool :=
  let x := Composite.restore (r.global constructs) (Composite.initEmpty next) existing (typeOf r recorded) default []
  (x.1, x.2.1)

end Verif.HandlerTypes
