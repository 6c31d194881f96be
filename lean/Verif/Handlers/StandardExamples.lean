import Verif.Handlers.StandardMoreProps

/-!
# StandardCheckpointHandler: concrete cases for C89
-/

namespace Verif.Handlers.Standard

open Verif.Arrays (Nd)

namespace Ex

inductive Dt | b | i64 | f32 | f64
deriving DecidableEq, Repr

/-- Python numbers; floats in halves. -/
inductive Num | int (n : Int) | float (halves : Int) | bool (b : Bool) | complex
deriving DecidableEq, Repr

/-- Integers and floats counted in halves; shardings are numbers: devices up to 3 exist, 9 is not recorded. -/
def w : World Dt Int Num Nat where
  cast d d' e := match d, d' with
    | .i64, .f32 => 2 * e
    | .i64, .f64 => 2 * e
    | .f32, .i64 => e.tdiv 2
    | .f64, .i64 => e.tdiv 2
    | _, _ => e
  zero _ := 0
  item d e := match d with
    | .b => .bool (e == 1)
    | .i64 => .int e
    | .f32 => .float e
    | .f64 => .float e
  ofPy p := match p with
    | .int n => if n < 2 ^ 63 ∧ - 2 ^ 63 ≤ n then some (.i64, n) else none
    | .float h => some (.f64, h)
    | .bool b => some (.b, if b then 1 else 0)
    | .complex => none
  tyOf p := match p with
    | .int _ => .int
    | .float _ => .float
    | .bool _ => .bool
    | .complex => .complex
  conv t p := match t, p with
    | .int, .int n => some (.int n)
    | .int, .float h => some (.int (h.tdiv 2))
    | .int, .bool b => some (.int (if b then 1 else 0))
    | .float, .int n => some (.float (2 * n))
    | .float, .float h => some (.float h)
    | .float, .bool b => some (.float (if b then 2 else 0))
    | .bool, .int n => some (.bool (n != 0))
    | .bool, .float h => some (.bool (h != 0))
    | .bool, .bool b => some (.bool b)
    | .complex, .complex => some .complex
    | _, _ => none
  pyOf d := match d with
    | .b => .bool
    | .i64 => .int
    | .f32 => .float
    | .f64 => .float
  f64 := .f64
  toF64 p := match p with
    | .int n => some (2 * n)
    | .float h => some h
    | .bool b => some (if b then 2 else 0)
    | .complex => none
  recorded s := s != 9
  available s := s < 4 || s == 9
  fits s shape := s != 1 || shape.head?.any (· % 2 == 0)

theorem lawful : Lawful w where
  cast d e := by cases d <;> rfl
  item p d e h := by
    cases p with
    | int n =>
      simp only [w] at h
      split at h
      · cases h; rfl
      · cases h
    | float n => cases h; rfl
    | bool b => cases h; cases b <;> rfl
    | complex => cases h
  conv p := by cases p <;> rfl
  pyOf p d e h := by
    cases p with
    | int n =>
      simp only [w] at h
      split at h
      · cases h; rfl
      · cases h
    | float n => cases h; rfl
    | bool b => cases h; cases b <;> rfl
    | complex => cases h
  f64 e := rfl

/-- An array of two elements. -/
def two (x y : Int) : Nd Int := ⟨[2], fun i => if i = [0] then x else y⟩

/-- A tree with every kind of leaf that comes back. -/
def tree : List (String × Leaf Dt Int Num Nat) :=
  [("w", .jax .f32 (two 3 5) 1), ("b", .np true .f64 (two 7 9)), ("step", .py (.int 40)), ("lr", .npScalar .f64 3), ("on", .py (.bool true))]

def ckpt : List (String × Stored Dt Int Nat) :=
  [("w", ⟨.jax, .f32, two 3 5, some 1⟩), ("b", ⟨.np, .f64, two 7 9, none⟩), ("step", ⟨.scalar, .i64, ⟨[], fun _ => 40⟩, none⟩),
   ("lr", ⟨.np, .f64, ⟨[], fun _ => 3⟩, none⟩), ("on", ⟨.scalar, .b, ⟨[], fun _ => 1⟩, none⟩)]

theorem saved : save w (fun _ => none) tree = some ckpt := rfl

end Ex

open Ex in
/-- C89: the hypotheses of `C89_same_target` hold for a tree of arrays and numbers. -/
theorem C89_same_target_nonvacuous :
    ∃ out, restoreTo w none true ckpt (tree.map fun p => (p.1, typeOf w p.2)) = some out ∧ EqTree (tree.map fun p => (p.1, plain p.2)) out := by
  refine C89_same_target lawful none true (fun _ => none) (fun _ _ h => nomatch h) tree (by decide) ckpt saved ?_ ?_
  · intro p hp
    simp only [tree, List.mem_cons, List.not_mem_nil, or_false] at hp
    rcases hp with rfl | rfl | rfl | rfl | rfl <;> exact (accepted_iff w _).mp rfl
  · intro k d a s hp
    simp only [tree, List.mem_cons, Prod.mk.injEq, Leaf.jax.injEq, reduceCtorEq, and_false, or_false, List.not_mem_nil] at hp
    obtain ⟨-, rfl, rfl, rfl⟩ := hp
    rfl

open Ex in
/-- C89: the hypotheses of `C89_no_target` hold for the same tree, here on a machine without the device of the array
(`s = 5` is not available) and with a fallback sharding. -/
theorem C89_no_target_nonvacuous :
    ∃ out, restoreAll w (some 2) true [("w", ⟨.jax, .f32, two 3 5, some 5⟩), ("lr", ⟨.np, .f32, ⟨[], fun _ => 3⟩, none⟩)] = some out ∧
      EqTree [("w", (.jax .f32 (two 3 5) 2 : Leaf Dt Int Num Nat)), ("lr", .np false .f32 ⟨[], fun _ => 3⟩)] out := by
  refine C89_no_target lawful (some 2) true (fun _ => none) (fun _ _ h => nomatch h) [("w", .jax .f32 (two 3 5) 5), ("lr", .npScalar .f32 3)] _ _ rfl ?_ ?_
  · exact .cons ⟨rfl, rfl⟩ (.cons ⟨rfl, rfl⟩ .nil)
  · intro k d a s hp
    simp only [List.mem_cons, Prod.mk.injEq, Leaf.jax.injEq, reduceCtorEq, and_false, or_false, List.not_mem_nil] at hp
    obtain ⟨-, rfl, rfl, rfl⟩ := hp
    rfl

open Ex in
/-- C89: the hypotheses of `C89_no_devices` hold for an array on a missing device. -/
theorem C89_no_devices_nonvacuous : restoreAll w none true [("w", (⟨.jax, .f32, two 3 5, some 5⟩ : Stored Dt Int Nat))] = none :=
  C89_no_devices lawful true (fun _ => none) (fun _ _ h => nomatch h) [("w", .jax .f32 (two 3 5) 5)] _ rfl "w" .f32 (two 3 5) 5 (by simp) rfl rfl

open Ex in
/-- C89: integers cast to floats on save. -/
theorem C89_stored_nonvacuous : saveLeaf w (some ⟨false, some .f32⟩) (.np false .i64 (two 3 5)) = some ⟨.np, .f32, convert w .i64 .f32 (two 3 5), none⟩ ∧
    (convert w .i64 .f32 (two 3 5)).at_ [1] = 10 := ⟨rfl, rfl⟩

open Ex in
/-- C89: a restore with another sharding, type and (not strict) shape succeeds. -/
theorem C89_restored_nonvacuous : (restoreTo w none false ckpt
    [("w", .struct .i64 [3] (some 0)), ("b", .np .f32 [2]), ("step", .py .float), ("lr", .py .float), ("on", .py .int)]).isSome = true := rfl

open Ex in
/-- C89 (finding): a `float` in the checkpoint and an `int` in the target: the value is truncated, without an error. -/
theorem C89_truncates_fails : save w (fun _ => none) [("lr", .py (.float 3))] = some [("lr", ⟨.scalar, .f64, ⟨[], fun _ => 3⟩, none⟩)] ∧
    restoreTo w none true [("lr", ⟨.scalar, .f64, ⟨[], fun _ => 3⟩, none⟩)] [("lr", .py .int)] = some [("lr", .py (.int 1))] := ⟨rfl, rfl⟩

open Ex in
/-- C89 (finding): an empty array is accepted by the check of the arguments, but cannot be saved. -/
theorem C89_empty_fails (d : Dt) (a : Nd Int) (h : 0 ∈ a.shape) (b : Bool) (s : Nat) :
    save w (fun _ => none) [("x", .np b d a)] = none ∧ save w (fun _ => none) [("x", .jax d a s)] = none := by
  constructor <;> simp [save, saveLeaf, write, h]

end Verif.Handlers.Standard
