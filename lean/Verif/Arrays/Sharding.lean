/-!
# Model of the construction of maximal shardings

Models `/repo/checkpoint/orbax/checkpoint/_src/arrays/sharding.py:38-107`.  A sharding is a mesh (sizes and
axis names) and one optional axis name per dimension of the array.  Axis names are `chr(ord('a') + offset)`;
the offset stands for the name.  The order in which `np.argsort(shape)[::-1]` visits the dimensions (ties are
broken arbitrarily) is a parameter.
-/

namespace Verif.Arrays.Sharding

structure Sharding where
  meshShape : List Nat
  meshAxes : List Nat
  spec : List (Option Nat)
deriving DecidableEq, Repr

/-- The local variables of the loop, sharding.py:64-69. -/
structure St where
  avail : Nat
  partition : List (Option Nat)
  meshShape : List Nat
  meshAxes : List Nat
  next : Nat
deriving DecidableEq, Repr

/-- The loop over the dimensions, sharding.py:71-86; dimensions out of range do not occur. -/
def loop (shape : List Nat) : List Nat → St → St
  | [], st => st
  | i :: order, st =>
    if st.avail = 1 then st
    else match shape[i]? with
      | none => loop shape order st
      | some d =>
        if d < st.avail then loop shape order st
        else
          let g := Nat.gcd d st.avail
          if g = 1 then loop shape order st
          else loop shape order
            { avail := st.avail / g, partition := st.partition.set i (some st.next),
              meshShape := st.meshShape ++ [g], meshAxes := st.meshAxes ++ [st.next], next := st.next + 1 }

/-- `_construct_maximal_sharding`, sharding.py:42-107.  `deviceCount` is the number of devices used,
`allDevices` is `jax.device_count()`. -/
def construct (order : List Nat) (deviceCount allDevices : Nat) (shape : List Nat) : Sharding :=
  if shape = [] then ⟨[deviceCount], [0], []⟩
  else if shape.foldr max 0 < allDevices then ⟨[deviceCount], [0], []⟩
  else
    let st := loop shape order ⟨deviceCount, shape.map fun _ => none, [], [], 0⟩
    if st.avail > 1 then ⟨st.meshShape ++ [st.avail], st.meshAxes ++ [st.next], st.partition⟩
    else ⟨st.meshShape, st.meshAxes, st.partition⟩

end Verif.Arrays.Sharding
