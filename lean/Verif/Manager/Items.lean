/-!
# Model of how a checkpoint manager treats one unnamed item or several named ones

Models, in `/repo/checkpoint/orbax/checkpoint/checkpoint_manager.py`, the choice between the two ways of using a `CheckpointManager`: one unnamed item
("default item"), or a `Composite` of named items.  The choice is fixed by the constructor or by the first call.  Modelled are the constructor's
arguments, `save`, `restore` and `item_metadata` in the current form (`args`) and in the deprecated form (`items` with keyword arguments), and the part
of `/repo/checkpoint/orbax/checkpoint/_src/handlers/composite_checkpoint_handler.py` that decides which items have a handler.

Simplifications.  Saving is finished when `save` returns.  What a handler writes for an item is its arguments, and what it returns on restoring is what
was written with the arguments of the restore; handlers themselves never fail and accept the arguments they are given (their choice by the type of the
arguments is modelled in `Verif.Composite`).  `step_name_format` is not given.  The policy for saving is a Boolean of the call.  All exceptions are `refused`.
Names that begin with two underscores and reserved names (there are none, checkpoint_manager.py:100) are left out.
-/

namespace Verif.ManagerItems

/-- `DEFAULT_ITEM_NAME`, checkpoint_manager.py:97. -/
def defaultName : String := "default"

/-- `METRIC_ITEM_NAME`, checkpoint_manager.py:98. -/
def metricName : String := "metrics"

/-- The `args` of a call: no `CheckpointArgs` at all, the arguments of one item, or a `Composite`. -/
inductive Args (T : Type) where
  | other
  | single (t : T)
  | composite (l : List (String × T))

/-- What is known of objects and classes.  `X` are objects given as `items`, `K` keyword arguments, `S` and `R` the arguments of an item for saving and
restoring, `M` metrics.  `save`, `restore` construct the arguments registered for an item from an object and keyword arguments; `dflt` constructs those
for restoring without any; `mapping` gives the entries of an object that is a mapping, and `isArgs` tells whether it is a `CheckpointArgs`. -/
structure Classes (X K S R M : Type) where
  save : String → X → Option K → S
  restore : String → Option X → Option K → R
  dflt : String → R
  metrics : M → S
  mapping : X → Option (List (String × X))
  isArgs : X → Bool
  kwargs : K → List (String × K)

/-- The value of a key. -/
def get {α : Type} (l : List (String × α)) (k : String) : Option α := (l.find? fun x => x.1 = k).map (·.2)

/-- `d[k] = v`. -/
def put {α : Type} (l : List (String × α)) (k : String) (v : α) : List (String × α) :=
  if (get l k).isSome then l.map fun x => if x.1 = k then (k, v) else x else l ++ [(k, v)]

/-- The finished steps in a directory, with their items. -/
abbrev Store (S : Type) := List (Nat × List (String × S))

/-- The items of a step. -/
def Store.items {S : Type} (d : Store S) (step : Nat) : Option (List (String × S)) := (d.find? fun x => x.1 = step).map (·.2)

/-- Removing a step. -/
def Store.remove {S : Type} (d : Store S) (step : Nat) : Store S := d.filter fun x => x.1 ≠ step

/-- A `CheckpointManager`: its directory, `_default_item`, the items with a handler in the registry of its composite handler,
`_item_names_without_registered_handlers` of that handler, the steps it knows, and whether it writes metrics (checkpoint_manager.py:1518-1520). -/
structure Mgr where
  dir : Nat
  mode : Option Bool
  known : List String
  waiting : Option (List String)
  steps : List Nat
  best : Bool
  deriving DecidableEq

/-! ### The constructor -/

/-- The argument `checkpointers`: one, or one for each name. -/
inductive Legacy where
  | single
  | named (l : List String)
  deriving DecidableEq

/-- The argument `item_handlers`: one, or for each name one or `None`. -/
inductive Handlers where
  | single
  | named (l : List (String × Bool))
  deriving DecidableEq

/-- The arguments of the constructor; of a registry, the names of its items. -/
structure Init where
  checkpointers : Option Legacy
  itemNames : Option (List String)
  itemHandlers : Option Handlers
  registry : Option (List String)
  best : Bool

/-- `bool(checkpointers)`. -/
def Legacy.truth : Option Legacy → Bool
  | none => false
  | some .single => true
  | some (.named l) => !l.isEmpty

/-- `bool(item_handlers)`. -/
def Handlers.truth : Option Handlers → Bool
  | none => false
  | some .single => true
  | some (.named l) => !l.isEmpty

/-- `bool(item_names)`. -/
def namesTruth : Option (List String) → Bool
  | none => false
  | some l => !l.isEmpty

/-- `all_item_handlers`, checkpoint_manager.py:1079-1088: names with `None`, updated with the given handlers. -/
def allHandlers (names : List String) (l : List (String × Bool)) : List (String × Bool) :=
  l.foldl (fun acc x => put acc x.1 x.2) (names.map fun n => (n, false))

/-- `__init__`, checkpoint_manager.py:738-834, 994-1034, 1056-1096, 1115-1121, with composite_checkpoint_handler.py:421-470; `none` is a `ValueError`.
`onDisk` are the steps in the directory. -/
def init (dir : Nat) (onDisk : List Nat) (i : Init) : Option Mgr :=
  if Legacy.truth i.checkpointers && namesTruth i.itemNames then none
  else if Legacy.truth i.checkpointers && Handlers.truth i.itemHandlers then none
  else if namesTruth i.itemNames && i.itemHandlers == some .single then none
  else if i.checkpointers.isSome && i.registry.isSome then none
  else if i.itemHandlers.isSome && i.registry.isSome then none
  else if i.itemNames.isSome && i.registry.isSome then none
  else
    match i.checkpointers with
    | some .single => some ⟨dir, some true, [defaultName, metricName], some [], onDisk, i.best⟩
    | some (.named l) => some ⟨dir, some false, l ++ [metricName], some [], onDisk, i.best⟩
    | none =>
      match i.registry with
      | some l => some ⟨dir, none, l ++ [metricName], none, onDisk, i.best⟩
      | none =>
        match i.itemNames, i.itemHandlers with
        | none, none => some ⟨dir, none, [metricName], none, onDisk, i.best⟩
        | _, some .single => some ⟨dir, some true, [defaultName, metricName], some [], onDisk, i.best⟩
        | names, h =>
          let all := put (allHandlers (names.getD []) (match h with | some (.named l) => l | _ => [])) metricName true
          some ⟨dir, some false, (all.filter (·.2)).map (·.1), some ((all.filter fun x => !x.2).map (·.1)), onDisk, i.best⟩

/-! ### Calls -/

/-- `set_if_none`, threading.py:93-98. -/
def Mgr.lock (m : Mgr) (b : Bool) : Mgr := { m with mode := some (m.mode.getD b) }

/-- `determine_default_item_mode_from_args`, checkpoint_manager.py:569-575. -/
def modeOfArgs {T : Type} : Option (Args T) → Bool
  | some (.composite _) => false
  | _ => true

/-- `_determine_default_item_mode_from_directory`, checkpoint_manager.py:578-579. -/
def modeOfDir {S : Type} (d : Store S) (step : Nat) : Bool :=
  match d.items step with
  | some l => (get l defaultName).isSome
  | none => false

/-- `_validate_args`, checkpoint_manager.py:1304-1332: `false` is a `ValueError`. -/
def valid {X T : Type} (isArgs : X → Bool) (mode : Option Bool) (items : Option X) (args : Option (Args T)) : Bool :=
  if (items.map isArgs).getD false then false
  else
    match args with
    | none => true
    | some .other => false
    | some (.composite _) => mode != some true
    | some (.single _) => mode == some true

/-- `_get_or_set_handler` for an item, composite_checkpoint_handler.py:534-626: `none` is an exception. -/
def Mgr.register (m : Mgr) (item : String) : Option Mgr :=
  if item ∈ m.known then some m
  else
    match m.waiting with
    | none => some { m with known := m.known ++ [item] }
    | some un => if item ∈ un then some { m with known := m.known ++ [item], waiting := some (un.filter fun n => n ≠ item) } else none

/-- The same for several items, until an exception. -/
def Mgr.registerAll (m : Mgr) : List String → Mgr × Bool
  | [] => (m, true)
  | n :: l =>
    match m.register n with
    | none => (m, false)
    | some m' => m'.registerAll l

variable {X K S R M : Type}

/-- What a call returns: an exception, `False`, `True`, the restored item or the restored items, and the metadata of an item or of all, each `None`
without a handler. -/
inductive Out (S R : Type) where
  | refused
  | skipped
  | saved
  | single (v : S × R)
  | named (l : List (String × (S × R)))
  | metaSingle (v : Option S)
  | metaNamed (l : List (String × Option S))

/-- The entries of `items` for saving, checkpoint_manager.py:1479-1485, 1492: `none` for an object without `items()`. -/
def itemsOf (c : Classes X K S R M) (mode : Option Bool) (items : Option X) : Option (List (String × X)) :=
  match items with
  | none => if mode = some true then none else some []
  | some x => if mode = some true then some [(defaultName, x)] else c.mapping x

/-- `save_kwargs[key] if key in save_kwargs else {}`, checkpoint_manager.py:1481-1485, 1497. -/
def kwargOf (c : Classes X K S R M) (mode : Option Bool) (kw : Option K) (key : String) : Option K :=
  match kw with
  | none => none
  | some k => if mode = some true then (if key = defaultName then some k else none) else get (c.kwargs k) key

/-- The arguments made from `items`, checkpoint_manager.py:1490-1500 and `_get_args_for_key`, 518-534. -/
def legacySave (c : Classes X K S R M) (known : List String) (kw : String → Option K) : List (String × X) → Option (List (String × S))
  | [] => some []
  | (k, x) :: l => if k ∈ known then (legacySave c known kw l).map fun r => (k, c.save k x (kw k)) :: r else none

/-- The composite arguments of a save, checkpoint_manager.py:1479-1510. -/
def saveArgs (c : Classes X K S R M) (m : Mgr) (items : Option X) (kw : Option K) (args : Option (Args S)) : Option (List (String × S)) :=
  match args with
  | none => (itemsOf c m.mode items).bind (legacySave c m.known (kwargOf c m.mode kw))
  | some (.single s) => if m.mode = some true then some [(defaultName, s)] else none
  | some (.composite l) => if m.mode = some true then none else some l
  | some .other => none

/-- The metrics are one more item, checkpoint_manager.py:1512-1522. -/
def withMetrics (c : Classes X K S R M) (m : Mgr) (metrics : Option M) (l : List (String × S)) : List (String × S) :=
  match metrics with
  | some x => if m.best then put l metricName (c.metrics x) else l
  | none => l

/-- `save`, checkpoint_manager.py:1412-1537 and 1541; async_checkpointer.py:517-529 for a step that exists in the directory.  `go` is
`force or should_save(step)`. -/
def save (c : Classes X K S R M) (m : Mgr) (d : Store S) (step : Nat) (items : Option X) (kw : Option K) (metrics : Option M) (go : Bool)
    (args : Option (Args S)) : Out S R × Mgr × Store S :=
  if items.isNone && args.isNone then (.refused, m, d)
  else
    let m1 := m.lock (modeOfArgs args)
    if !valid c.isArgs m1.mode items args then (.refused, m1, d)
    else if !go then (.skipped, m1, d)
    else if step ∈ m1.steps then (.refused, m1, d)
    else
      match saveArgs c m1 items kw args with
      | none => (.refused, m1, d)
      | some l =>
        let l := withMetrics c m1 metrics l
        match m1.registerAll (l.map (·.1)) with
        | (m2, false) => (.refused, m2, d.remove step)
        | (m2, true) => (.saved, { m2 with steps := step :: m2.steps }, (step, l) :: d.remove step)

/-- The keys of `items` and `restore_kwargs`, checkpoint_manager.py:1722-1734. -/
def restoreKeys (c : Classes X K S R M) (mode : Option Bool) (items : Option X) (kw : Option K) : Option (List (String × X) × List (String × K)) :=
  let ks : List (String × K) := match kw with
    | none => []
    | some k => if mode = some true then [(defaultName, k)] else c.kwargs k
  match items with
  | none => some ([], ks)
  | some x => if mode = some true then some ([(defaultName, x)], ks) else (c.mapping x).map fun l => (l, ks)

/-- The arguments made from them, checkpoint_manager.py:1735-1744. -/
def legacyRestore (c : Classes X K S R M) (known : List String) (xs : List (String × X)) (ks : List (String × K)) :
    List String → Option (List (String × R))
  | [] => some []
  | k :: l => if k ∈ known then (legacyRestore c known xs ks l).map fun r => (k, c.restore k (get xs k) (get ks k)) :: r else none

/-- The composite arguments of a restore, checkpoint_manager.py:1722-1749. -/
def restoreArgs (c : Classes X K S R M) (m : Mgr) (items : Option X) (kw : Option K) (args : Option (Args R)) : Option (List (String × R)) :=
  match args with
  | none => (restoreKeys c m.mode items kw).bind fun (xs, ks) =>
      legacyRestore c m.known xs ks (xs.map (·.1) ++ (ks.map (·.1)).filter fun k => !(xs.map (·.1)).contains k)
  | some (.single r) => if m.mode = some true then some [(defaultName, r)] else none
  | some (.composite l) => if m.mode = some true then none else some l
  | some .other => none

/-- The default arguments for all items, composite_checkpoint_handler.py:799-843: an item without a handler gets that of the type recorded in the
checkpoint, except when it waits for one. -/
def defaultArgs (c : Classes X K S R M) (m : Mgr) : List String → Option (List (String × R))
  | [] => some []
  | n :: l =>
    if n ∈ m.known ∨ n ∉ m.waiting.getD [] then (defaultArgs c m l).map fun r => (n, c.dflt n) :: r else none

/-- The loop of the composite handler's `restore`, composite_checkpoint_handler.py:845-863. -/
def restoreItems (items : List (String × S)) (m : Mgr) : List (String × R) → Option (List (String × (S × R))) × Mgr
  | [] => (some [], m)
  | (n, r) :: l =>
    match get items n with
    | none => (none, m)
    | some s =>
      match m.register n with
      | none => (none, m)
      | some m' =>
        let (o, m'') := restoreItems items m' l
        (o.map fun q => (n, (s, r)) :: q, m'')

/-- `_maybe_get_default_item`, checkpoint_manager.py:1627-1638. -/
def unwrap (mode : Option Bool) (l : List (String × (S × R))) : Out S R :=
  if mode = some true then
    match get l defaultName with
    | some v => .single v
    | none => .refused
  else .named l

/-- The step to restore, checkpoint_manager.py:1691-1702: without a step the latest one, of the manager or of the other directory. -/
def stepToRestore (m : Mgr) (d : Store S) (other : Bool) : Option Nat → Option Nat
  | some s => some s
  | none => if other then (d.map (·.1)).max? else m.steps.max?

/-- `restore`, checkpoint_manager.py:1640-1763, from the directory `d`; `other` if the directory was given. -/
def restore (c : Classes X K S R M) (m : Mgr) (d : Store S) (other : Bool) (step : Option Nat) (items : Option X) (kw : Option K)
    (args : Option (Args R)) : Out S R × Mgr :=
  match stepToRestore m d other step with
  | none => (.refused, m)
  | some step =>
    let m1 := m.lock (modeOfDir d step)
    if !valid c.isArgs m1.mode items args then (.refused, m1)
    else
      match restoreArgs c m1 items kw args with
      | none => (.refused, m1)
      | some l =>
        match d.items step with
        | none => (.refused, m1)
        | some saved =>
          match if l.isEmpty then defaultArgs c m1 (saved.map (·.1)) else some l with
          | none => (.refused, m1)
          | some l =>
            match restoreItems saved m1 l with
            | (none, m2) => (.refused, m2)
            | (some q, m2) => (unwrap m2.mode q, m2)

/-- `item_metadata`, checkpoint_manager.py:1765-1789, 1917-1929, with composite_checkpoint_handler.py:905-939. -/
def metadata (m : Mgr) (d : Store S) (step : Nat) : Out S R × Mgr :=
  match d.items step with
  | none => (.refused, m)
  | some l =>
    let m1 := m.lock (modeOfDir d step)
    let q := l.map fun x => (x.1, if x.1 ∈ m1.known then some x.2 else none)
    if m1.mode = some true then
      match get q defaultName with
      | some v => (.metaSingle v, m1)
      | none => (.refused, m1)
    else (.metaNamed q, m1)

/-! ### Histories -/

/-- The managers created so far and the directories. -/
structure World (S : Type) where
  mgrs : List Mgr
  dirs : Nat → Store S

/-- A call, by the number of the manager, or the removal of a step. -/
inductive Event (X K S R M : Type) where
  | new (dir : Nat) (i : Init)
  | save (j : Nat) (step : Nat) (items : Option X) (kw : Option K) (metrics : Option M) (go : Bool) (args : Option (Args S))
  | restore (j : Nat) (step : Option Nat) (dir : Option Nat) (items : Option X) (kw : Option K) (args : Option (Args R))
  | metadata (j : Nat) (step : Nat)
  | reload (j : Nat)
  | gone (dir : Nat) (step : Nat)

/-- Replacing the contents of a directory. -/
def World.write (w : World S) (dir : Nat) (d : Store S) : Nat → Store S := fun k => if k = dir then d else w.dirs k

/-- What an event returns and leaves behind. -/
def step (c : Classes X K S R M) (w : World S) : Event X K S R M → Out S R × World S
  | .new dir i =>
    match init dir ((w.dirs dir).map (·.1)) i with
    | none => (.refused, w)
    | some m => (.saved, { w with mgrs := w.mgrs ++ [m] })
  | .save j st items kw metrics go args =>
    match w.mgrs[j]? with
    | none => (.refused, w)
    | some m =>
      let (o, m', d') := save c m (w.dirs m.dir) st items kw metrics go args
      (o, ⟨w.mgrs.set j m', w.write m.dir d'⟩)
  | .restore j st dir items kw args =>
    match w.mgrs[j]? with
    | none => (.refused, w)
    | some m =>
      let (o, m') := restore c m (w.dirs (dir.getD m.dir)) dir.isSome st items kw args
      (o, { w with mgrs := w.mgrs.set j m' })
  | .metadata j st =>
    match w.mgrs[j]? with
    | none => (.refused, w)
    | some m =>
      let (o, m') := metadata m (w.dirs m.dir) st
      (o, { w with mgrs := w.mgrs.set j m' })
  | .reload j =>
    match w.mgrs[j]? with
    | none => (.refused, w)
    | some m => (.saved, { w with mgrs := w.mgrs.set j { m with steps := (w.dirs m.dir).map (·.1) } })
  | .gone dir st => (.saved, { w with dirs := w.write dir ((w.dirs dir).remove st) })

/-- A history. -/
def run (c : Classes X K S R M) (w : World S) (es : List (Event X K S R M)) : World S := es.foldl (fun w e => (step c w e).2) w

/-- Nothing has happened. -/
def World.start : World S := ⟨[], fun _ => []⟩

end Verif.ManagerItems
