import Verif.Handlers.Standard

/-!
# Restoring an array with `ArrayRestoreArgs` and a target

Models `ArrayRestoreArgs` (_src/serialization/jax_array_restore_args.py:30-88),
`_fill_missing_save_or_restore_args` and `_update_array_restore_args`
(_src/handlers/base_pytree_checkpoint_handler.py:171-230) and what `ArrayHandler` makes of
the arguments (_src/serialization/jax_array_handlers.py:1037-1088,
_src/serialization/serialization.py:268-308 and 403-462) for one leaf of a tree that is
restored with `PyTreeCheckpointHandler`. Elements, conversions and shardings are those of
`Handlers/Standard.lean`. Left out: random keys as arguments, layouts.
-/

namespace Verif.Handlers.ArrayArgs

open Verif.Arrays (Nd)
open Verif.Handlers.Standard (World Stored inside convert openAs)

variable {D E P S : Type} [DecidableEq D]

/-- `ArrayRestoreArgs`, jax_array_restore_args.py:62-71. The sharding is the one found from
`sharding`, `mesh` and `mesh_axes` (C88). -/
structure Args (D S : Type) where
  sharding : S
  globalShape : Option (List Nat)
  shape : Option (List Nat)
  dtype : Option D
  strict : Bool

/-- `__post_init__`, jax_array_restore_args.py:73-82; `none`: it raises. -/
def Args.init (a : Args D S) : Option (Args D S) :=
  match a.shape, a.globalShape with
  | some s, some g => if s = g then some a else none
  | none, g => some { a with shape := g }
  | some s, none => some { a with globalShape := some s }

/-- A leaf of the target: a class, something with shape and element type (an array, a
`jax.ShapeDtypeStruct`, a NumPy scalar), a random key, something without them. -/
inductive Item (D : Type)
  | cls
  | array (shape : List Nat) (dtype : D)
  | key (shape : List Nat)
  | plain

/-- `bool` of a tuple: `getattr(v, 'shape', False)`, base_pytree_checkpoint_handler.py:177. -/
def truthy (shape : List Nat) : Bool := !shape.isEmpty

/-- `_update_array_restore_args`, base_pytree_checkpoint_handler.py:171-190. `replace` builds
the arguments anew, so `__post_init__` runs again. -/
def update (v : Item D) (a : Args D S) : Option (Args D S) :=
  match v with
  | .array shape dtype =>
    if truthy shape then
      if a.strict then
        let g := if a.globalShape = none ∧ a.shape = none then some shape else a.globalShape
        let d := if a.dtype = none then some dtype else a.dtype
        ({ a with globalShape := g, dtype := d } : Args D S).init
      else some a
    else some a
  | _ => some a

/-- `ArrayHandler.deserialize`, jax_array_handlers.py:1037-1088, and `async_deserialize`,
serialization.py:403-462 and 291-308: the element type and the array; `none`: it raises. -/
def read (w : World D E P S) (st : Stored D E S) (a : Args D S) : Option (D × Nd E) :=
  let g := a.globalShape.getD st.a.shape
  if !w.fits a.sharding g then none
  else if a.strict then
    if st.a.shape = g then some (openAs w st a.dtype) else none
  else if st.a.shape.length = g.length then
    let o := openAs w st a.dtype
    some (o.1, ⟨g, fun i => if inside st.a.shape i then o.2.at_ i else w.zero o.1⟩)
  else none

/-- Restoring one leaf with `PyTreeRestore(item, restore_args)`: the user makes the arguments,
the handler fills them in from the target, the array is read. -/
def restore (w : World D E P S) (st : Stored D E S) (v : Item D) (a : Args D S) :
    Option (D × Nd E) :=
  (a.init.bind (update v)).bind (read w st)

/-- The arguments `construct_restore_args` makes for a `jax.Array` or a sharded
`jax.ShapeDtypeStruct`, checkpoint_utils.py:506-523. -/
def constructed (sharding : S) (shape : List Nat) (dtype : D) (setShape strict : Bool) :
    Args D S :=
  ⟨sharding, if setShape then some shape else none, none, some dtype, strict⟩

end Verif.Handlers.ArrayArgs
