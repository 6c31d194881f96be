import Verif.Handlers.Places

/-!
# Which chunks of a local checkpoint are there

checkpoint/orbax/checkpoint/experimental/emergency/local_checkpoint_data_debugging.py: for every array of a local checkpoint it
lists the chunks in storage and the shards of the local devices that have none.  Here positions of a slice are natural numbers or
`None`, as JAX gives them, and `int` of a text takes decimal digits only.
-/

namespace Verif.Emergency.ChunkDebug

abbrev Str := List Char

/-- `AssertionError`, `ZeroDivisionError`, `ValueError`. -/
inductive Err | assertion | zeroDivision | value
deriving DecidableEq, Repr

/-- A Python slice. -/
structure Slice where
  start : Option Nat
  stop : Option Nat
  step : Option Nat
deriving DecidableEq, Repr

/-- The body of the loop of `index_to_chunk_id`, local_checkpoint_data_debugging.py:43-53, for one dimension. -/
def dimId (g s : Nat) (sl : Slice) : Except Err Nat :=
  let start := sl.start.getD 0
  let stop := sl.stop.getD g
  if ¬ (sl.step = some 1 ∨ sl.step = none) then .error .assertion
  else if ¬ (start % s = 0 ∧ stop % s = 0) then .error .assertion
  else if stop ≠ start + s then .error .assertion
  else .ok (start / s)

/-- The loop of `index_to_chunk_id`, local_checkpoint_data_debugging.py:43-54. -/
def dims : List Slice → List Nat → List Nat → Except Err (List Nat)
  | sl :: idx, g :: G, s :: S =>
    match dimId g s sl with
    | .error e => .error e
    | .ok i =>
      match dims idx G S with
      | .error e => .error e
      | .ok l => .ok (i :: l)
  | _, _, _ => .ok []

/-- `index_to_chunk_id`, local_checkpoint_data_debugging.py:36-54; the divisions of line 41 are only seen when they fail. -/
def indexToChunkId (idx : List Slice) (G S : List Nat) : Except Err (List Nat) :=
  if ¬ (idx.length = G.length ∧ G.length = S.length) then .error .assertion
  else if S.any fun s => s == 0 then .error .zeroDivision
  else dims idx G S

/-- `chunk_id_to_index`, local_checkpoint_data_debugging.py:57-66. -/
def chunkIdToIndex (id S : List Nat) : Except Err (List Slice) :=
  if id.length ≠ S.length then .error .assertion
  else .ok (List.zipWith (fun i s => ⟨some (i * s), some (i * s + s), none⟩) id S)

/-- `int(x)`, local_checkpoint_data_debugging.py:79. -/
def parseInt (x : Str) : Except Err Nat :=
  if x = [] ∨ ¬ (x.all Char.isDigit = true) then .error .value else .ok (Nat.ofDigitChars 10 x 0)

/-- `[int(x) for x in l]`. -/
def parseAll : List Str → Except Err (List Nat)
  | [] => .ok []
  | x :: l =>
    match parseInt x with
    | .error e => .error e
    | .ok n =>
      match parseAll l with
      | .error e => .error e
      | .ok r => .ok (n :: r)

/-- The chunk of a key, local_checkpoint_data_debugging.py:73, 79. -/
def parseKey (zarr3 : Bool) (v : Str) : Except Err (List Nat) :=
  parseAll ((Handlers.Places.splitOn (if zarr3 then '/' else '.') v).filter fun x => decide (x ≠ ['c']))

/-- The chunks of the keys, local_checkpoint_data_debugging.py:77-82. -/
def parseKeys (zarr3 : Bool) : List Str → Except Err (List (List Nat))
  | [] => .ok []
  | v :: l =>
    if Handlers.Places.hasSub "zarr".toList v then parseKeys zarr3 l
    else
      match parseKey zarr3 v with
      | .error e => .error e
      | .ok id =>
        match parseKeys zarr3 l with
        | .error e => .error e
        | .ok r => .ok (id :: r)

/-- `get_chunk_ids_from_tensorstore`, local_checkpoint_data_debugging.py:69-86, of the keys in storage and a shape. -/
def chunkIds (zarr3 : Bool) (keys : List Str) (shape : List Nat) : Except Err (List (List Nat)) :=
  match parseKeys zarr3 keys with
  | .error e => .error e
  | .ok r => if r.all fun id => id.length == shape.length then .ok r else .error .assertion

/-- The loop of `get_present_and_missing_chunks`, local_checkpoint_data_debugging.py:133-140: of every device, whether it is local, and
its index. -/
def missing (present : List (List Nat)) (G S : List Nat) : List (Bool × List Slice) → Except Err (List (List Nat))
  | [] => .ok []
  | (isLocal, idx) :: l =>
    if !isLocal then missing present G S l
    else
      match indexToChunkId idx G S with
      | .error e => .error e
      | .ok id =>
        match missing present G S l with
        | .error e => .error e
        | .ok r => .ok (if id ∈ present then r else id :: r)

/-- `get_present_and_missing_chunks`, local_checkpoint_data_debugging.py:116-141. -/
def report (zarr3 : Bool) (keys : List Str) (G S : List Nat) (devices : List (Bool × List Slice)) :
    Except Err (List (List Nat) × List (List Nat)) :=
  match chunkIds zarr3 keys G with
  | .error e => .error e
  | .ok present =>
    match missing present G S devices with
    | .error e => .error e
    | .ok m => .ok (present, m)

end Verif.Emergency.ChunkDebug
