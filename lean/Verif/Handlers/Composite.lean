/-!
# Model of handler registries and the composite handler

Models `/repo/checkpoint/orbax/checkpoint/_src/handlers/handler_registration.py`, `/repo/checkpoint/orbax/checkpoint/checkpoint_args.py:60-200`
and `/repo/checkpoint/orbax/checkpoint/_src/handlers/composite_checkpoint_handler.py:205-1058`.

`A` are the classes of `CheckpointArgs`, `C` the handler classes; of an args object only its class matters, so arguments are their classes.
A handler is an instance, given by its class and a number; handlers are compared by identity.  A dictionary is the list of its entries in the order
of insertion.  Exceptions are `none`, with the state they leave behind.  Not modelled: what handlers do, directories and their creation, timing,
barriers and legacy wrappers.  `RESERVED_ITEM_NAMES` is empty (composite_checkpoint_handler.py:87), so checks for it are left out.
-/

namespace Verif.Composite

variable {A C : Type} [DecidableEq A] [DecidableEq C]

/-- A handler instance. -/
structure Handler (C : Type) where
  cls : C
  id : Nat
  deriving DecidableEq, Repr

/-! ### The registry of a user -/

/-- `DefaultCheckpointHandlerRegistry._registry`, handler_registration.py:148. -/
abbrev Registry (A C : Type) := List ((Option String × A) × Handler C)

/-- `get`, handler_registration.py:220-244. -/
def get (r : Registry A C) (item : Option String) (a : A) : Option (Handler C) := (r.find? fun x => x.1 = (item, a)).map (·.2)

/-- `has`, handler_registration.py:246-262. -/
def has (r : Registry A C) (item : Option String) (a : A) : Bool := (get r item a).isSome

/-- `add` of a handler instance, handler_registration.py:158-218. -/
def add (r : Registry A C) (item : Option String) (a : A) (h : Handler C) : Option (Registry A C) :=
  if has r item a then none else some (r ++ [((item, a), h)])

/-- The constructor with another registry, handler_registration.py:145-156. -/
def copyInto (r : Registry A C) : Registry A C → Option (Registry A C)
  | [] => some r
  | ((item, a), h) :: l => (add r item a h).bind fun r' => copyInto r' l

/-! ### Globally registered args -/

/-- `_SAVE_ARG_TO_HANDLER` and `_RESTORE_ARG_TO_HANDLER`, checkpoint_args.py:65-69, and which handler classes can be constructed without arguments. -/
structure Global (A C : Type) where
  save : List (A × C)
  restore : List (A × C)
  constructs : C → Bool

/-- `get_registered_handler_cls`, checkpoint_args.py:122-139. -/
def Global.cls (g : Global A C) (a : A) : Option C :=
  match g.save.find? fun x => x.1 = a with
  | some x => some x.2
  | none => (g.restore.find? fun x => x.1 = a).map (·.2)

/-- `get_registered_args_cls`, checkpoint_args.py:142-174. -/
def Global.args (g : Global A C) (c : C) : Option (A × A) :=
  match g.save.find? (fun x => x.2 = c), g.restore.find? fun x => x.2 = c with
  | some s, some r => some (s.1, r.1)
  | _, _ => none

/-- `create_default_handler_registry`, handler_registration.py:277-288. -/
def createDefault (g : Global A C) (r : Registry A C) : List (String × Handler C) → Option (Registry A C)
  | [] => some r
  | (item, h) :: l => do
    let (s, rs) ← g.args h.cls
    let r1 ← add r (some item) s h
    let r2 ← add r1 (some item) rs h
    createDefault g r2 l

/-! ### The composite handler -/

/-- `CompositeCheckpointHandler`.  `unregistered` is `_item_names_without_registered_handlers`, `deferred` is `_items_with_deferred_registration`,
`next` numbers new instances and `temp` are the items of `_current_temporary_paths`. -/
structure State (A C : Type) where
  registry : Registry A C
  unregistered : Option (List String)
  deferred : List String
  next : Nat
  temp : List String := []

/-- `_get_unique_registered_items_and_handlers`, composite_checkpoint_handler.py:205-224. -/
def unique (r : Registry A C) : List (String × Handler C) :=
  r.foldl (fun acc x => match x.1.1 with
    | some i => if (i, x.2) ∈ acc then acc else acc ++ [(i, x.2)]
    | none => acc) []

/-- `_add_to_handler_registry_from_global_registry`, composite_checkpoint_handler.py:227-251: the registry and whether there was no exception. -/
def addGlobal (g : Global A C) (r : Registry A C) (h : Handler C) (item : String) : Registry A C × Bool :=
  match g.args h.cls with
  | none => (r, false)
  | some (s, rs) =>
    match add r (some item) s h with
    | none => (r, false)
    | some r1 =>
      if rs ≠ s then
        match add r1 (some item) rs h with
        | none => (r1, false)
        | some r2 => (r2, true)
      else (r1, true)

/-- `__init__` with a handler registry, composite_checkpoint_handler.py:446-462. -/
def initRegistry (r : Registry A C) (next : Nat) : Option (State A C) :=
  (copyInto [] r).map fun r' => ⟨r', none, (unique r').map (·.1), next, []⟩

/-- `__init__` without arguments, composite_checkpoint_handler.py:463-468. -/
def initEmpty (next : Nat) : State A C := ⟨[], none, [], next, []⟩

/-- `__init__` with item names and handlers (`None` for an item without one), composite_checkpoint_handler.py:400-445.  Handlers without registered
args, which are wrapped, are left out: an exception here. -/
def initItems (g : Global A C) (next : Nat) (names : List String) (items : List (String × Option (Handler C))) : Option (State A C) :=
  let un := (names.filter fun n => !(items.map (·.1)).contains n) ++ (items.filter fun x => x.2.isNone).map (·.1)
  let rec go (r : Registry A C) : List (String × Option (Handler C)) → Option (Registry A C)
    | [] => some r
    | (_, none) :: l => go r l
    | (i, some h) :: l =>
      match addGlobal g r h i with
      | (r', true) => go r' l
      | (_, false) => none
  (go [] items).map fun r => ⟨r, some un, [], next, []⟩

/-- `_get_or_set_handler`, composite_checkpoint_handler.py:534-626. -/
def getOrSet (g : Global A C) (s : State A C) (item : String) : Option A → Option (Handler C) × State A C
  | none => (((unique s.registry).find? fun x => x.1 = item).map (·.2), s)
  | some a =>
    match get s.registry (some item) a with
    | some h => (some h, s)
    | none =>
      match get s.registry none a with
      | some h =>
        match add s.registry (some item) a h with
        | some r => (some h, { s with registry := r })
        | none => (none, s)
      | none =>
        match g.cls a with
        | none => (none, s)
        | some c =>
          if g.constructs c = false then (none, s)
          else
            let h : Handler C := ⟨c, s.next⟩
            let s := { s with next := s.next + 1 }
            match s.unregistered with
            | some un =>
              if item ∈ un then
                let (r, ok) := addGlobal g s.registry h item
                (if ok then some h else none, { s with unregistered := some (un.filter fun i => i ≠ item), registry := r })
              else (none, s)
            | none =>
              if item ∈ s.deferred then (none, s)
              else
                let (r, ok) := addGlobal g s.registry h item
                (if ok then some h else none, { s with deferred := item :: s.deferred, registry := r })

/-- The loop of `async_save`, composite_checkpoint_handler.py:697-711, over the items in sorted order: the handlers that saved, until an exception. -/
def saveItems (g : Global A C) (s : State A C) : List (String × Option A) → List (String × Handler C) × Bool × State A C
  | [] => ([], true, s)
  | (item, a) :: l =>
    match getOrSet g s item a with
    | (none, s') => ([], false, s')
    | (some h, s') =>
      let (done, ok, s'') := saveItems g s' l
      ((item, h) :: done, ok, s'')

/-- `async_save`, composite_checkpoint_handler.py:671-729. -/
def save (g : Global A C) (s : State A C) (args : List (String × Option A)) : List (String × Handler C) × Bool × State A C :=
  saveItems g { s with temp := args.map (·.1) } args

/-- The loop of `restore`, composite_checkpoint_handler.py:852-863, over the items in sorted order. -/
def restoreItems (g : Global A C) (existing : List String) (s : State A C) : List (String × Option A) → List (String × Handler C) × Bool × State A C
  | [] => ([], true, s)
  | (item, a) :: l =>
    if item ∈ existing then
      match getOrSet g s item a with
      | (none, s') => ([], false, s')
      | (some h, s') =>
        let (done, ok, s'') := restoreItems g existing s' l
        ((item, h) :: done, ok, s'')
    else ([], false, s)

/-- `dict(self._get_all_registered_and_unregistered_items_and_handlers())`, composite_checkpoint_handler.py:512-532, 794-796: the last handler of an
item; `some none` is an item without a handler. -/
def itemHandler (s : State A C) (item : String) : Option (Option (Handler C)) :=
  if item ∈ s.unregistered.getD [] then some none
  else ((unique s.registry).reverse.find? fun x => x.1 = item).map fun x => some x.2

/-- The default arguments of `restore`, composite_checkpoint_handler.py:799-843.  `typeOf` is the handler class the checkpoint names for an item,
`default` says which args classes can be constructed without arguments. -/
def defaultArgs (g : Global A C) (s : State A C) (typeOf : String → Option C) (default : A → Bool) : List String → Option (List (String × Option A))
  | [] => some []
  | item :: l => do
    let c ← match itemHandler s item with
      | none => typeOf item
      | some none => none
      | some (some h) => some h.cls
    let (_, a) ← g.args c
    if default a then
      let r ← defaultArgs g s typeOf default l
      return (item, some a) :: r
    else none

/-- `restore`, composite_checkpoint_handler.py:767-863.  `existing` is in sorted order. -/
def restore (g : Global A C) (s : State A C) (existing : List String) (typeOf : String → Option C) (default : A → Bool)
    (args : List (String × Option A)) : List (String × Handler C) × Bool × State A C :=
  if args = [] then
    match defaultArgs g s typeOf default existing with
    | none => ([], false, s)
    | some args => restoreItems g existing s args
  else restoreItems g existing s args

/-- The loop of `finalize`, composite_checkpoint_handler.py:1042-1058: the finalized items with the handlers used, and the items that remain. -/
def finalizeItems (temp : List String) : List (String × Handler C) → List (String × Handler C) × List String
  | [] => ([], temp)
  | (item, h) :: l =>
    if item ∈ temp then
      let (done, t) := finalizeItems (temp.filter fun i => i ≠ item) l
      ((item, h) :: done, t)
    else finalizeItems temp l

/-- `finalize`, composite_checkpoint_handler.py:1039-1058. -/
def finalize (s : State A C) : Option (List (String × Handler C)) × State A C :=
  if s.temp = [] then (none, s)
  else
    let (done, t) := finalizeItems s.temp (unique s.registry)
    (some done, { s with temp := t })

/-- `_get_item_handlers`, composite_checkpoint_handler.py:865-906, for an item: the name on disk if there is one, or else that of the handler of the
item. -/
def itemTypeStr (typestr : C → String) (s : State A C) (saved : String → Option String) (item : String) : Option String :=
  match saved item with
  | some t => some t
  | none => match itemHandler s item with
    | some (some h) => some (typestr h.cls)
    | _ => none

/-! ### Histories -/

/-- A call of the composite handler. -/
inductive Op (A C : Type) where
  | save (args : List (String × Option A))
  | restore (existing : List String) (typeOf : String → Option C) (default : A → Bool) (args : List (String × Option A))
  | finalize

/-- The state after a call, whether it raised or not. -/
def step (g : Global A C) (s : State A C) : Op A C → State A C
  | .save args => (save g s args).2.2
  | .restore existing typeOf default args => (restore g s existing typeOf default args).2.2
  | .finalize => (finalize s).2

def run (g : Global A C) (s : State A C) (l : List (Op A C)) : State A C := l.foldl (step g) s

end Verif.Composite
