import Verif.NameFormat.Lemmas

/-!
Trees written to bytes and read back with msgpack.

Modelled code: checkpoint/orbax/checkpoint/msgpack_utils.py:37-234. The msgpack library is not part of the
repository: its format is modelled as a tree of values and extension types that is read back as it was written, with
a limit for the bytes of one array, and as refusing maps with keys that are not strings (`strict_map_key`, its
default). NumPy's `dtype.name`, `tobytes` and `frombuffer` are modelled with the order of the bytes of an element.
Not modelled: structured dtypes, the limit for a whole tuple, the copy of the tree before it is changed in place, and
keys of dictionaries that are neither strings nor integers.
-/

namespace Verif.Handlers.Msgpack

open Verif.NameFormat (dec)

/-- `None`, booleans, numbers, strings and bytes. -/
inductive Prim where
  | none
  | bool (b : Bool)
  | int (n : Int)
  | float (bits : Nat)
  | str (s : List Char)
  | bytes (b : List Nat)
deriving DecidableEq

inductive Key where
  | str (s : List Char)
  | int (n : Int)
deriving DecidableEq

/-- An array: the name of its dtype, the bytes per element, whether they are stored with the most significant byte
first, the shape and, in row-major order, the elements, each given by its bytes from the least significant one on. -/
structure Arr where
  name : List Char
  item : Nat
  big : Bool
  object : Bool
  shape : List Nat
  elems : List (List Nat)
deriving DecidableEq

mutual
inductive Tree where
  | prim (p : Prim)
  | complex (re im : Nat)
  /-- a `jax.Array` or a NumPy array -/
  | arr (jax : Bool) (a : Arr)
  /-- a NumPy scalar -/
  | scalar (a : Arr)
  | list (xs : Seq)
  | tuple (xs : Seq)
  | dict (kvs : Dict)
  /-- an object of another class -/
  | custom
inductive Seq where
  | nil
  | cons (t : Tree) (r : Seq)
inductive Dict where
  | nil
  | cons (k : Key) (t : Tree) (r : Dict)
end

mutual
/-- What the bytes hold: plain values and the extension types, msgpack_utils.py:65-70. -/
inductive Wire where
  | prim (p : Prim)
  | list (xs : Wires)
  | map (kvs : WireMap)
  | ndarray (shape : List Nat) (name : List Char) (buffer : List Nat)
  | complex (re im : Nat)
  | npscalar (shape : List Nat) (name : List Char) (buffer : List Nat)
  | tuple (xs : Wires)
inductive Wires where
  | nil
  | cons (t : Wire) (r : Wires)
inductive WireMap where
  | nil
  | cons (k : Key) (t : Wire) (r : WireMap)
end

/-- The marker of a chunked array, msgpack_utils.py:152. -/
def marker : Key := .str "__msgpack_chunked_array__".toList

def Dict.get : Dict → Key → Option Tree
  | .nil, _ => none
  | .cons k t r, k' => if k = k' then some t else r.get k'

def Dict.size : Dict → Nat
  | .nil => 0
  | .cons _ _ r => r.size + 1

/-! ### Writing -/

mutual
/-- `_np_convert_in_place`, msgpack_utils.py:132-142. It goes down dictionaries only. -/
def npConvert : Tree → Tree
  | .dict d => .dict (npConvertDict d)
  | .arr _ a => .arr false a
  | t => t
def npConvertDict : Dict → Dict
  | .nil => .nil
  | .cons k t r => .cons k (npConvert t) (npConvertDict r)
end

/-- `_tuple_to_dict`, msgpack_utils.py:145, from an index on. -/
def indexed : Nat → List Tree → Dict
  | _, [] => .nil
  | i, t :: ts => .cons (.str (dec i)) t (indexed (i + 1) ts)

/-- `flatarr[i:i + chunksize] for i in range(0, flatarr.size, chunksize)`, msgpack_utils.py:155. -/
def pieces (size : Nat) : Nat → List (List Nat) → List (List (List Nat))
  | 0, _ => []
  | _ + 1, [] => []
  | n + 1, l => l.take size :: pieces size n (l.drop size)

/-- `_chunk`, msgpack_utils.py:149-157. -/
def chunk (max : Nat) (a : Arr) : Tree :=
  let size := Nat.max 1 (max / a.item)
  .dict (.cons marker (.prim (.bool true))
    (.cons (.str "shape".toList) (.dict (indexed 0 (a.shape.map fun n : Nat => .prim (.int (n : Int)))))
      (.cons (.str "chunks".toList)
        (.dict (indexed 0 ((pieces size a.elems.length a.elems).map fun p => .arr false { a with shape := [p.length], elems := p }))) .nil)))

mutual
/-- `_chunk_array_leaves_in_place`, msgpack_utils.py:168-180. It goes down dictionaries only. -/
def chunkLeaves (max : Nat) : Tree → Tree
  | .dict d => .dict (chunkLeavesDict max d)
  | .arr false a => if a.elems.length * a.item > max then chunk max a else .arr false a
  | t => t
def chunkLeavesDict (max : Nat) : Dict → Dict
  | .nil => .nil
  | .cons k t r => .cons k (chunkLeaves max t) (chunkLeavesDict max r)
end

/-- `arr.tobytes('C')`. -/
def toBytes (a : Arr) : List Nat := (a.elems.map fun e => if a.big then e.reverse else e).flatten

/-- `_ndarray_to_bytes`, msgpack_utils.py:37-45. -/
def ndarrayToBytes (limit : Nat) (a : Arr) : Option (List Nat × List Char × List Nat) :=
  if a.object then none else if (toBytes a).length > limit then none else some (a.shape, a.name, toBytes a)

mutual
/-- `msgpack.packb` with `_msgpack_ext_pack`, msgpack_utils.py:73-100 and 216. -/
def pack (limit : Nat) : Tree → Option Wire
  | .prim p => some (.prim p)
  | .complex re im => some (.complex re im)
  | .arr _ a => (ndarrayToBytes limit a).map fun x => .ndarray x.1 x.2.1 x.2.2
  | .scalar a => (ndarrayToBytes limit a).map fun x => .npscalar x.1 x.2.1 x.2.2
  | .list xs => (packSeq limit xs).map .list
  | .tuple xs => (packSeq limit xs).map .tuple
  | .dict d => (packDict limit d).map .map
  | .custom => none
def packSeq (limit : Nat) : Seq → Option Wires
  | .nil => some .nil
  | .cons t r => (pack limit t).bind fun w => (packSeq limit r).map (.cons w)
def packDict (limit : Nat) : Dict → Option WireMap
  | .nil => some .nil
  | .cons k t r => (pack limit t).bind fun w => (packDict limit r).map (.cons k w)
end

/-- `msgpack_serialize`, msgpack_utils.py:197-216. -/
def serialize (max limit : Nat) (t : Tree) : Option Wire := pack limit (chunkLeaves max (npConvert t))

/-! ### Reading -/

/-- Bytes in groups. -/
def groups (item : Nat) : Nat → List Nat → List (List Nat)
  | 0, _ => []
  | n + 1, b => b.take item :: groups item n (b.drop item)

def prod : List Nat → Nat
  | [] => 1
  | n :: s => n * prod s

/-- `_ndarray_from_bytes`, msgpack_utils.py:48-62: `np.dtype(name)` is of native byte order, least significant byte first.
`sizes` are the bytes per element of the dtypes. -/
def ndarrayFromBytes (sizes : List Char → Option Nat) (shape : List Nat) (name : List Char) (buffer : List Nat) : Option Arr :=
  (sizes name).bind fun item =>
    if item = 0 ∨ buffer.length % item ≠ 0 ∨ prod shape ≠ buffer.length / item then none
    else some ⟨name, item, false, false, shape, groups item (buffer.length / item) buffer⟩

mutual
/-- `msgpack.unpackb` with `_msgpack_ext_unpack`, msgpack_utils.py:103-119 and 232. -/
def unpack (sizes : List Char → Option Nat) : Wire → Option Tree
  | .prim p => some (.prim p)
  | .complex re im => some (.complex re im)
  | .ndarray s n b => (ndarrayFromBytes sizes s n b).map (.arr false)
  | .npscalar s n b => (ndarrayFromBytes sizes s n b).map .scalar
  | .list xs => (unpackSeq sizes xs).map .list
  | .tuple xs => (unpackSeq sizes xs).map .tuple
  | .map d => (unpackMap sizes d).map .dict
def unpackSeq (sizes : List Char → Option Nat) : Wires → Option Seq
  | .nil => some .nil
  | .cons t r => (unpack sizes t).bind fun w => (unpackSeq sizes r).map (.cons w)
def unpackMap (sizes : List Char → Option Nat) : WireMap → Option Dict
  | .nil => some .nil
  | .cons (.int _) _ _ => none
  | .cons (.str s) t r => (unpack sizes t).bind fun w => (unpackMap sizes r).map (.cons (.str s) w)
end

/-- `_dict_to_tuple`, msgpack_utils.py:146, from an index on. -/
def dictToTuple (d : Dict) (i : Nat) : Nat → Option (List Tree)
  | 0 => some []
  | n + 1 => (d.get (.str (dec i))).bind fun t => (dictToTuple d (i + 1) n).map (t :: ·)

def asDict : Tree → Option Dict
  | .dict d => some d
  | _ => none

def asNat : Tree → Option Nat
  | .prim (.int n) => if n < 0 then none else some n.toNat
  | _ => none

def asArr : Tree → Option Arr
  | .arr _ a => some a
  | _ => none

def all {α β : Type} (f : α → Option β) : List α → Option (List β)
  | [] => some []
  | x :: xs => (f x).bind fun y => (all f xs).map (y :: ·)

/-- `_unchunk`, msgpack_utils.py:160-165. -/
def unchunk (d : Dict) : Option Tree :=
  ((d.get (.str "shape".toList)).bind asDict).bind fun sd => ((dictToTuple sd 0 sd.size).bind (all asNat)).bind fun shape =>
  ((d.get (.str "chunks".toList)).bind asDict).bind fun cd => ((dictToTuple cd 0 cd.size).bind (all asArr)).bind fun chunks =>
  chunks.head?.bind fun first =>
    if prod shape = ((chunks.map (·.elems)).flatten).length then
      some (.arr false { first with shape := shape, elems := (chunks.map (·.elems)).flatten })
    else none

mutual
/-- `_unchunk_array_leaves_in_place`, msgpack_utils.py:183-194. It goes down dictionaries only. -/
def unchunkLeaves : Tree → Option Tree
  | .dict d => if (d.get marker).isSome then unchunk d else (unchunkLeavesDict d).map .dict
  | t => some t
def unchunkLeavesDict : Dict → Option Dict
  | .nil => some .nil
  | .cons k t r => (unchunkLeaves t).bind fun t' => (unchunkLeavesDict r).map (.cons k t')
end

/-- `msgpack_restore`, msgpack_utils.py:219-234. -/
def restore (sizes : List Char → Option Nat) (w : Wire) : Option Tree := (unpack sizes w).bind unchunkLeaves

end Verif.Handlers.Msgpack
