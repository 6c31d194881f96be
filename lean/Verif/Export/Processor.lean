/-!
# Data processors written in JAX

Models `export/orbax/export/data_processors/jax_data_processor.py`: which inputs a processor is traced
with, the symbols given to unknown sizes, that it is prepared once, and where its parameters are saved.
The conversion itself (`jax2obm.convert`) is a parameter that may raise. Texts are lists of characters.
-/
namespace Verif.Export.Processor

abbrev Str := List Char

/-- A size in the shape of an input: known, named by the user, or unknown (`None`). -/
inductive Dim
  | size (n : Nat)
  | named (s : Str)
  | unknown
deriving DecidableEq, Repr

/-- A leaf of the inputs: without a shape (a number), of unknown rank (`shape is None`), or with a shape. -/
inductive Leaf
  | plain
  | anyRank
  | shape (ds : List Dim)
deriving DecidableEq, Repr

/-- The kinds of errors raised. -/
inductive Err | value | type | runtime | convert
deriving DecidableEq, Repr

/-- `f'd_{counter}'`. -/
def fresh (k : Nat) : Str := "d_".toList ++ Nat.toDigits 10 k

/-- `_JaxShapeSpecGenerator.__call__`, `jax_data_processor.py:62-98`, for one shape, with the counter. The
dimensions are kept as a list instead of being put together in one text that JAX takes apart again. -/
def symbols (c : Nat) (first : Bool) : List Dim → List Str × Nat
  | [] => ([], c)
  | .size n :: ds => let r := symbols c false ds; (Nat.toDigits 10 n :: r.1, r.2)
  | .named s :: ds => let r := symbols c false ds; (s :: r.1, r.2)
  | .unknown :: ds =>
    if first then let r := symbols c false ds; ("b".toList :: r.1, r.2)
    else let r := symbols (c + 1) false ds; (fresh c :: r.1, r.2)

/-- `jax.tree.map(_JaxShapeSpecGenerator(), signature)`: one generator for all leaves. -/
def allSymbols (c : Nat) : List (Str × List Dim) → List (Str × List Str)
  | [] => []
  | (key, ds) :: rest => let r := symbols c true ds; (key, r.1) :: allSymbols r.2 rest

/-- `jax.tree.map(_jax_spec_from, signature)`, `jax_data_processor.py:30-60`: raises at the first leaf
without shape or with an unknown rank (`_convert_shape(None)`). Only the shapes are kept. -/
def shapes : List (Str × Leaf) → Except Err (List (Str × List Dim))
  | [] => .ok []
  | (_, .plain) :: _ => .error .value
  | (_, .anyRank) :: _ => .error .type
  | (key, .shape ds) :: rest =>
    match shapes rest with
    | .ok r => .ok ((key, ds) :: r)
    | .error e => .error e

/-- What is available to a processor: named inputs, or a tree of another form (leaves with their paths). -/
inductive Avail
  | mapping (kvs : List (Str × Leaf))
  | other (leaves : List (Str × Leaf))

/-- The value of a key. -/
def get (m : List (Str × Leaf)) (key : Str) : Option Leaf :=
  match m with
  | [] => none
  | (k, v) :: rest => if k = key then some v else get rest key

/-- `{k: available_tensor_specs[k] for k in self.input_keys}`, after the check for missing keys. Simplified:
the keys are taken in the order of the list (JAX sorts them); a named input is one leaf. -/
def select (m : List (Str × Leaf)) : List Str → Except Err (List (Str × Leaf))
  | [] => .ok []
  | k :: ks =>
    match get m k with
    | none => .error .value
    | some v =>
      match select m ks with
      | .ok r => .ok ((k, v) :: r)
      | .error e => .error e

/-- What the function is converted with: parameters, if there are any, and the shapes of the inputs. -/
structure Fn (P : Type) where
  params : Option P
  inputs : List (Str × List Str)

/-- A `JaxDataProcessor`. -/
structure Proc (P : Type) where
  name : Str
  keys : List Str
  params : Option P
  checkpointPath : Option Str := none
  weightsName : Option Str := none
  prepared : Bool := false
  signature : Option (List (Str × Leaf)) := none
  function : Option (Fn P) := none

/-- The choice of inputs, `jax_data_processor.py:170-186`. -/
def choose {P : Type} (p : Proc P) : Avail → Except Err (List (Str × Leaf))
  | .mapping kvs => if p.keys = [] then .ok kvs else select kvs p.keys
  | .other leaves => if p.keys = [] then .ok leaves else .error .value

/-- `prepare`, `jax_data_processor.py:143-263`; `converts` says whether the conversion raises. -/
def prepare {P : Type} (converts : Fn P → Bool) (p : Proc P) (avail : Avail) : Except Err Unit × Proc P :=
  if p.prepared then (.error .runtime, p)
  else if p.name = [] then (.error .value, p)
  else
    match choose p avail with
    | .error e => (.error e, p)
    | .ok sig =>
      match shapes sig with
      | .error e => (.error e, { p with signature := some sig })
      | .ok ds =>
        if converts ⟨p.params, allSymbols 0 ds⟩ then
          (.ok (), { p with signature := some sig, function := some ⟨p.params, allSymbols 0 ds⟩, prepared := true })
        else (.error .convert, { p with signature := some sig })

/-- `a / b` of `pathlib`. -/
def join (a b : Str) : Str := if b.head? = some '/' then b else a ++ '/' :: b

/-- A text option, or the given default: `option or default`. -/
def orElse (o : Option Str) (default : Str) : Str :=
  match o with
  | none => default
  | some [] => default
  | some s => s

/-- What saving the parameters does: the directory written, the key and the path it is recorded with. -/
structure Saved where
  written : Str
  key : Str
  recorded : Str
deriving DecidableEq, Repr

/-- `_save_checkpoint`, `jax_data_processor.py:207-224`; without parameters there is no such function. -/
def save {P : Type} (p : Proc P) (model : Str) : Option Saved :=
  match p.params with
  | none => none
  | some _ =>
    let ckp := orElse p.checkpointPath "processor_checkpoint".toList
    some { written := join (join model ckp) p.name,
           key := orElse p.weightsName ("params_".toList ++ p.name),
           recorded := join ckp p.name }

end Verif.Export.Processor
