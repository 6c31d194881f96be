import Verif.Assoc

/-!
# Model of `Context` and its options

Models `/repo/checkpoint/orbax/checkpoint/experimental/v1/_src/context/context.py:31-446`,
`options.py:37-79` and the use of contexts by `Checkpointer` (`training/checkpointer.py:174, 279, 567-582`).

Objects live in a heap: the number of an object is its `id`.  Objects are never freed, so an `id` is never used
again.  Every `with` statement keeps its own tokens.  Values that `copy.deepcopy` does not copy (numbers, strings,
functions, classes, enum members) are atoms.
-/

namespace Verif.V1.Context

/-- A value of an attribute. -/
inductive Val | atom (a : Nat) | ref (i : Nat)
deriving DecidableEq, Repr

/-- `options`: dataclasses of options.py; `container`: lists, tuples, sets and dictionaries; `foreign`: other objects
with attributes, for example registries. -/
inductive Kind | options | container | foreign | context
deriving DecidableEq, Repr

/-- An object: attributes by name, or elements by index or key. -/
structure Obj where
  kind : Kind
  fields : List (String × Val)

def shiftVal (n : Nat) : Val → Val
  | .atom a => .atom a
  | .ref i => .ref (n + i)

def shiftObj (n : Nat) (o : Obj) : Obj := ⟨o.kind, o.fields.map fun p => (p.1, shiftVal n p.2)⟩

/-- New objects `t`, which refer to each other, are created; `v` refers to them. -/
def graft (h t : List Obj) (v : Val) : List Obj × Val := (h ++ t.map (shiftObj h.length), shiftVal h.length v)

/-- `copy.deepcopy`: new objects for all that can be reached.  The model copies what cannot be reached as well;
nothing refers to these copies. -/
def deepcopy (h : List Obj) (v : Val) : List Obj × Val := graft h h v

/-- The default options: `default_factory` of the option of this name. -/
abbrev Defaults := String → List Obj × Val

/-- `_get_option`, context.py:63-89. -/
def getOption (dflt : Defaults) (h : List Obj) (given parent : Option Val) (name : String) : List Obj × Val :=
  match given, parent with
  | some v, _ => deepcopy h v
  | none, some v => deepcopy h v
  | none, none => graft h (dflt name).1 (dflt name).2

/-- The options of a context, context.py:230-302. -/
def names : List String :=
  ["pytree", "array", "asynchronous", "multiprocessing", "file", "checkpointables", "pathways", "checkpoint_layout", "deletion", "memory",
   "safetensors", "atomicity"]

/-- Attribute of an object. -/
def attr (h : List Obj) (i : Nat) (name : String) : Option Val := (h[i]?).bind fun o => Assoc.get o.fields name

/-- The options, one after the other. -/
def getOptions (dflt : Defaults) (given : String → Option Val) (parent : Option Nat) : List Obj → List String → List Obj × List (String × Val)
  | h, [] => (h, [])
  | h, name :: rest =>
    let r := getOption dflt h (given name) (parent.bind fun p => attr h p name) name
    let rs := getOptions dflt given parent r.1 rest
    (rs.1, (name, r.2) :: rs.2)

/-- `Context.__init__`, context.py:191-302. -/
def newContext (dflt : Defaults) (h : List Obj) (parent : Option Nat) (given : String → Option Val) : List Obj × Nat :=
  let r := getOptions dflt given parent h names
  (r.1 ++ [⟨.context, r.2⟩], r.1.length)

/-- `_collect_ids`, context.py:417-446: `none` if the recursion is too deep.  `todo` are the values still to visit. -/
def collect (h : List Obj) : Nat → List Val → List Nat → Option (List Nat)
  | _, [], ids => some ids
  | 0, _ :: _, _ => none
  | fuel + 1, .atom _ :: todo, ids => collect h fuel todo ids
  | fuel + 1, .ref i :: todo, ids =>
    if i ∈ ids then collect h fuel todo ids
    else match h[i]? with
      | none => collect h fuel todo ids
      | some o => match o.kind with
        | .options => collect h fuel (o.fields.map (·.2) ++ todo) (i :: ids)
        | .container => collect h fuel (o.fields.map (·.2) ++ todo) ids
        | .foreign => collect h fuel todo ids
        | .context => collect h fuel todo ids

/-- The context variables `_CONTEXT` and `FROZEN_IDS`. -/
structure Vars where
  ctx : Option Nat
  frozen : List Nat

/-- A thread or task: its variables, and the tokens of its open `with` blocks, innermost first. -/
structure Exec where
  vars : Vars
  stack : List Vars

structure State where
  heap : List Obj
  exec : Nat → Option Exec

/-- What can happen. -/
inductive Event
  /-- `Context(parent, ...)` -/
  | new (parent : Option Nat) (given : String → Option Val)
  /-- any other object is created -/
  | alloc (o : Obj)
  /-- `with c:` is entered by thread or task `e` -/
  | enter (e : Nat) (c : Nat)
  /-- the innermost `with` block is left, normally or by an exception -/
  | leave (e : Nat)
  /-- `i.name = v` -/
  | setattr (e : Nat) (i : Nat) (name : String) (v : Val)
  /-- a container is changed in place, or an attribute of an object that is not an options object is set -/
  | poke (e : Nat) (i : Nat) (name : String) (v : Val)
  /-- `threading.Thread` -/
  | thread (e' : Nat)
  /-- `asyncio.create_task` -/
  | task (e e' : Nat)

def putExec (s : State) (e : Nat) (x : Exec) : State := ⟨s.heap, fun j => if j = e then some x else s.exec j⟩

/-- `object.__setattr__`. -/
def assign (h : List Obj) (i : Nat) (name : String) (v : Val) : List Obj :=
  match h[i]? with
  | none => h
  | some o => h.set i ⟨o.kind, Assoc.put o.fields name v⟩

/-- Whether an assignment is refused: `_ActiveContextGuard.__setattr__`, options.py:58-79; properties without setter,
and `checkpoint_layout`, context.py:304-365. -/
def refused (s : State) (e : Nat) (i : Nat) (name : String) : Bool :=
  match s.exec e, s.heap[i]? with
  | some x, some o => match o.kind with
    | .options => decide (i ∈ x.vars.frozen)
    | .context => decide (name ≠ "checkpoint_layout") || decide (i ∈ x.vars.frozen)
    | _ => true
  | _, _ => true

/-- A step.  What raises changes nothing. -/
def step (dflt : Defaults) (limit : Nat) (s : State) : Event → State
  | .new parent given => { s with heap := (newContext dflt s.heap parent given).1 }
  | .alloc o => { s with heap := s.heap ++ [o] }
  | .enter e c =>
    match s.exec e, s.heap[c]? with
    | some x, some o =>
      if o.kind = .context then
        match collect s.heap limit (o.fields.map (·.2)) [c] with
        | some ids => putExec s e ⟨⟨some c, ids ++ x.vars.frozen⟩, x.vars :: x.stack⟩
        | none => s
      else s
    | _, _ => s
  | .leave e =>
    match s.exec e with
    | some ⟨_, old :: stack⟩ => putExec s e ⟨old, stack⟩
    | _ => s
  | .setattr e i name v => if refused s e i name then s else { s with heap := assign s.heap i name v }
  | .poke e i name v =>
    match s.exec e, s.heap[i]? with
    | some _, some o => match o.kind with
      | .container => { s with heap := assign s.heap i name v }
      | .foreign => { s with heap := assign s.heap i name v }
      | _ => s
    | _, _ => s
  | .thread e' =>
    match s.exec e' with
    | none => putExec s e' ⟨⟨none, []⟩, []⟩
    | some _ => s
  | .task e e' =>
    match s.exec e, s.exec e' with
    | some x, none => putExec s e' ⟨x.vars, []⟩
    | _, _ => s

def run (dflt : Defaults) (limit : Nat) (s : State) (evs : List Event) : State := evs.foldl (step dflt limit) s

/-- `get_context`, context.py:37-60: the active context, or the default that is given; `none` is a new context with
default options. -/
def getContext (s : State) (e : Nat) (default : Option Nat) : Option Nat :=
  match (s.exec e).bind (·.vars.ctx) with
  | some c => some c
  | none => default

/-- `Checkpointer.__init__`, training/checkpointer.py:174: heap and context of the checkpointer.  Without an active
context and without argument the parent is a new default context. -/
def newCheckpointer (dflt : Defaults) (s : State) (e : Nat) (context : Option Nat) : List Obj × Nat :=
  newContext dflt s.heap (match context with | some c => some c | none => getContext s e none) (fun _ => none)

/-- The context used by the methods of a checkpointer, training/checkpointer.py:279, 567-582, 778, 824, 862, 882. -/
def usedContext (s : State) (e : Nat) (own : Nat) : Option Nat := getContext s e (some own)

end Verif.V1.Context
