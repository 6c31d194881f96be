import Verif.Assoc

/-!
String leaves, which are all stored in one JSON document of the checkpoint, each at a JSON pointer made of its name.

Modelled code: checkpoint/orbax/checkpoint/_src/serialization/type_handlers.py:267-382 (`StringHandler`) and
checkpoint/orbax/checkpoint/experimental/v1/_src/serialization/string_leaf_handler.py:39-163 (`StringLeafHandler`).

The JSON driver of TensorStore is not part of the repository. It is modelled as its documentation says: the pointer
is read as in RFC 6901, a write creates the objects on the way and replaces what is at its place, and it fails if
something on the way is not an object. Only the process with index 0 writes; the others are not modelled.
-/

namespace Verif.Handlers.Strings

open Verif

/-- A JSON document with string leaves. -/
inductive Json where
  | str (s : List Char)
  | obj (m : List (List Char × Json))

/-- The parts of a pointer between slashes, RFC 6901. -/
def split : List Char → List (List Char)
  | [] => [[]]
  | c :: r =>
    if c = '/' then [] :: split r
    else match split r with
      | h :: t => (c :: h) :: t
      | [] => [[c]]

/-- A member name: `~0` is a tilde and `~1` a slash, RFC 6901; any other tilde is an error. -/
def unescape : List Char → Option (List Char)
  | [] => some []
  | '~' :: '0' :: r => (unescape r).map ('~' :: ·)
  | '~' :: '1' :: r => (unescape r).map ('/' :: ·)
  | '~' :: _ => none
  | c :: r => (unescape r).map (c :: ·)

def unescapeAll : List (List Char) → Option (List (List Char))
  | [] => some []
  | t :: ts => (unescape t).bind fun t' => (unescapeAll ts).map (t' :: ·)

/-- The place of a leaf: `json_pointer: '/' + name`, type_handlers.py:289, string_leaf_handler.py:73. -/
def pointer (name : List Char) : Option (List (List Char)) := unescapeAll (split name)

/-- What is at a place. -/
def get : List (List Char) → Json → Option Json
  | [], j => some j
  | t :: ts, .obj m => (Assoc.get m t).bind (get ts)
  | _ :: _, .str _ => none

/-- Writes a string to a place of a document, which may not exist yet. -/
def put : List (List Char) → List Char → Option Json → Option Json
  | [], v, _ => some (.str v)
  | t :: ts, v, none => (put ts v none).map fun j => .obj [(t, j)]
  | t :: ts, v, some (.obj m) => (put ts v (Assoc.get m t)).map fun j => .obj (Assoc.put m t j)
  | _ :: _, _, some (.str _) => none

/-- One leaf is written. -/
def write (doc : Option Json) (leaf : List Char × List Char) : Option (Option Json) :=
  (pointer leaf.1).bind fun p => (put p leaf.2 doc).map some

/-- All leaves are written in one transaction, type_handlers.py:310-345, string_leaf_handler.py:76-105; an error fails
the whole save. -/
def save : Option Json → List (List Char × List Char) → Option (Option Json)
  | doc, [] => some doc
  | doc, l :: ls => (write doc l).bind fun d => save d ls

/-- What a restored leaf is. -/
inductive Restored where
  | string (s : List Char)
  /-- the Python text of an object -/
  | text
  | error

/-- A leaf is read: `str(result)`, type_handlers.py:306-308 and 363-382, string_leaf_handler.py:124-145. -/
def load (doc : Option Json) (name : List Char) : Restored :=
  match (pointer name).bind fun p => doc.bind (get p) with
  | some (.str s) => .string s
  | some (.obj _) => .text
  | none => .error

end Verif.Handlers.Strings
