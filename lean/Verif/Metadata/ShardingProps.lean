import Verif.Metadata.Sharding
import Verif.Metadata.RichProps
import Mathlib.Algebra.BigOperators.Group.List.Basic

/-!
# C54: sharding metadata
-/

namespace Verif.TreeMetadata

open Verif Verif.Trees

/-! ## Specification -/

/-- The sequence type JSON keeps: a tuple of axes is read as a list. -/
def asList : SpecElem → SpecElem
  | .tuple l => .list l
  | e => e

/-- The mesh is made of lists (and the positions are the keys). -/
inductive Lists : Tree Int → Prop where
  | leaf (i) : Lists (.leaf i)
  | list (l : List (Tree Int)) : (∀ t ∈ l, Lists t) → Lists (listNode l)

/-! ## Lemmas -/

theorem strs_enum : ∀ (l : List Name) (i : Nat), Forest.strs (enumFrom i (l.map pyStr)) = some l
  | [], _ => rfl
  | a :: l, i => by simp [enumFrom, Forest.strs, pyStr]; simpa [pyStr] using strs_enum l (i + 1)

theorem elem_json {e : SpecElem} {j : Py} (h : e.toJson = some j) : SpecElem.ofJson j = some (asList e) := by
  cases e <;> simp only [SpecElem.toJson, Option.some.injEq, reduceCtorEq] at h <;> subst h <;>
    simp [SpecElem.ofJson, Tree.pyNone, pyStr, listNode, asList]
  all_goals (rename_i l; exact strs_enum l 0)

theorem specs_json : ∀ {l : List SpecElem} {js : List Py} (i : Nat), l.mapM SpecElem.toJson = some js →
    Forest.specs (enumFrom i js) = some (l.map asList)
  | [], js, i, h => by simp only [List.mapM_nil, Option.pure_def, Option.some.injEq] at h; subst h; rfl
  | e :: l, js, i, h => by
    simp only [List.mapM_cons, Option.bind_eq_bind, Option.pure_def, Option.bind_eq_some_iff, Option.some.injEq] at h
    obtain ⟨j, hj, r, hr, rfl⟩ := h
    simp [enumFrom, Forest.specs, elem_json hj, specs_json (i + 1) hr]

theorem types_json (str : AxisType → Name) (hs : Function.Injective str) : ∀ l : List AxisType, (l.map str).mapM (axisType str) = some l
  | [] => rfl
  | a :: l => by
    have h1 : axisType str (str a) = some a := by
      cases a <;> simp [axisType, hs.eq_iff]
    simp [List.mapM_cons, h1, types_json str hs l]

theorem meshes_json {l : List (Tree Int)} (h : ∀ t ∈ l, meshOf (meshJson t) = some t) (i : Nat) :
    meshesOf (meshesJson i (enumFrom i l)) = some (enumFrom i l) := by
  induction l generalizing i with
  | nil => rfl
  | cons t l ih => simp [enumFrom, meshesJson, meshesOf, h t (by simp), ih (fun x hx => h x (List.mem_cons_of_mem _ hx)) (i + 1)]

theorem mesh_json {t : Tree Int} (h : Lists t) : meshOf (meshJson t) = some t := by
  induction h with
  | leaf i => simp [meshJson, meshOf, dictNode, Forest.ofList, Forest.get, fld]
  | list l _ ih => simp [listNode, meshJson, meshOf, meshes_json ih 0]

theorem toJson_isSome {l : List SpecElem} : (l.mapM SpecElem.toJson).isSome = true ↔ SpecElem.unconstrained ∉ l := by
  induction l with
  | nil => simp
  | cons e l ih =>
    rcases hl : l.mapM SpecElem.toJson with _ | js
    · rw [hl] at ih
      simp only [List.mapM_cons, hl, List.mem_cons, not_or, ← ih]
      cases e <;> simp [SpecElem.toJson]
    · rw [hl] at ih
      simp only [List.mapM_cons, hl, List.mem_cons, not_or, ← ih]
      cases e <;> simp [SpecElem.toJson]

theorem strs_enum_ne {a : Name} {l : List Name} : ∃ k t r, enumFrom 0 ((a :: l).map pyStr) = Forest.cons k t r := ⟨_, _, _, rfl⟩

/-! ## C54 -/

/-- What is read is what was written, except that tuples of axes are lists and that an empty tuple of axis types is missing. -/
theorem C54_read_back (str : AxisType → Name) (hs : Function.Injective str) (s : Named) (hu : SpecElem.unconstrained ∉ s.spec)
    (hm : ∀ m, s.mesh = some m → Lists m) :
    ((ShardingMeta.named s).toJson str).bind (ShardingMeta.ofJson str) =
      some (.named { s with spec := s.spec.map asList, types := if s.types = some [] then none else s.types }) := by
  obtain ⟨shape, axes, spec, types, mesh⟩ := s
  simp only at hu hm
  obtain ⟨js, hjs⟩ := Option.isSome_iff_exists.mp (toJson_isSome.mpr hu)
  have e1 := ints_enum shape 0
  have e2 := strs_enum axes 0
  have e3 := specs_json 0 hjs
  have e4 : ∀ l : List AxisType, Forest.strs (enumFrom 0 (l.map fun a => pyStr (str a))) = some (l.map str) := by
    intro l; have := strs_enum (l.map str) 0; rwa [List.map_map] at this
  simp only [ShardingMeta.toJson, Named.toJson, hjs, Option.map_some, Option.bind_some]
  have e5 := types_json str hs
  have e6 := fun m h => mesh_json (hm m h)
  rcases types with _ | _ | ⟨a, types⟩ <;> rcases mesh with _ | m <;>
    simp [dictNode, Forest.ofList, ShardingMeta.ofJson, Named.ofDict, Forest.get, fld, kType, kMeshShape, kAxes, kAxisTypes, kSpec, kMesh, kInner, pyStr,
        listNode, vNamedSharding, enumFrom, e1, e2, e3, e6]
  all_goals
    have h4 := e4 (a :: types)
    have h5 := e5 (a :: types)
    simp only [List.map_cons, enumFrom, pyStr] at h4 h5
    simp [h4, h5]

/-- C54: for every metadata whose partition spec names at most one axis for each dimension, what is read equals what was written. -/
theorem C54_round_trip (str : AxisType → Name) (hs : Function.Injective str) (s : Named) (hspec : ∀ e ∈ s.spec, e = .none ∨ (∃ a, e = .axis a) ∨ ∃ l, e = .list l)
    (ht : s.types ≠ some []) (hm : ∀ m, s.mesh = some m → Lists m) :
    ((ShardingMeta.named s).toJson str).bind (ShardingMeta.ofJson str) = some (.named s) := by
  rw [C54_read_back str hs s _ hm]
  · have h1 : s.spec.map asList = s.spec := by
      conv => rhs; rw [← List.map_id s.spec]
      apply List.map_congr_left
      intro e he
      rcases hspec e he with rfl | ⟨a, rfl⟩ | ⟨l, rfl⟩ <;> rfl
    rw [h1]
    obtain ⟨shape, axes, spec, types, mesh⟩ := s
    simp only at ht
    simp [ht]
  · intro h
    rcases hspec _ h with h | ⟨_, h⟩ | ⟨_, h⟩ <;> cases h

/-- C54 fails for a dimension divided over several axes: the tuple comes back as a list, and a tuple is not equal to a list. -/
theorem C54_several_axes_fails (str : AxisType → Name) (hs : Function.Injective str) (s : Named) (hu : SpecElem.unconstrained ∉ s.spec)
    (hm : ∀ m, s.mesh = some m → Lists m) (l : List Name) (hl : .tuple l ∈ s.spec) :
    ((ShardingMeta.named s).toJson str).bind (ShardingMeta.ofJson str) ≠ some (.named s) := by
  rw [C54_read_back str hs s hu hm]
  intro h
  have h1 := congrArg (fun x => match x with | some (ShardingMeta.named s) => s.spec | _ => []) h
  simp only at h1
  rw [← h1, List.mem_map] at hl
  obtain ⟨e, _, he⟩ := hl
  cases e <;> simp [asList] at he

/-- C54 fails for an empty tuple of axis types, which is read as "no axis types". -/
theorem C54_empty_types_fails (str : AxisType → Name) (hs : Function.Injective str) (s : Named) (hu : SpecElem.unconstrained ∉ s.spec)
    (hm : ∀ m, s.mesh = some m → Lists m) (ht : s.types = some []) :
    ∃ s', ((ShardingMeta.named s).toJson str).bind (ShardingMeta.ofJson str) = some (.named s') ∧ s'.types = none := by
  refine ⟨_, C54_read_back str hs s hu hm, ?_⟩
  simp [ht]

/-- A partition spec with `UNCONSTRAINED` cannot be written at all. -/
theorem C54_unconstrained_fails (str : AxisType → Name) (s : Named) (hu : SpecElem.unconstrained ∈ s.spec) :
    (ShardingMeta.named s).toJson str = none := by
  have h := (toJson_isSome (l := s.spec)).not.mpr (by simpa using hu)
  simp only [ShardingMeta.toJson, Named.toJson]
  simpa using h

/-- C54 for one device. -/
theorem C54_single (str : AxisType → Name) (d : Name) :
    ((ShardingMeta.single d).toJson str).bind (ShardingMeta.ofJson str) = some (.single d) := by
  simp [ShardingMeta.toJson, dictNode, Forest.ofList, ShardingMeta.ofJson, Forest.get, fld, kType, kDevice, pyStr, vSingle, vNamedSharding]

/-- Metadata of another type, or without a type, is refused. -/
theorem C54_unknown (str : AxisType → Name) (f : Forest P)
    (h : ∀ t, f.get (.dict (.str "sharding_type".toList)) = some (.leaf (.str t)) → t ≠ "NamedSharding".toList ∧ t ≠ "SingleDeviceSharding".toList) :
    ShardingMeta.ofJson str (.node .dict f) = none := by
  simp only [ShardingMeta.ofJson]
  have e : fld kType = .dict (.str "sharding_type".toList) := by simp [fld, kType]
  rw [e]
  split
  · rename_i t ht
    have := h t ht
    simp at this
    simp [vNamedSharding, vSingle, this]
  · rfl

/-! ### Shardings of JAX -/

theorem pieces_length {α} (n : Nat) : ∀ (k : Nat) (l : List α), (pieces n k l).length = k
  | 0, _ => rfl
  | k + 1, l => by simp [pieces, pieces_length n k]

theorem pieces_flatten {α} (n : Nat) : ∀ (k : Nat) (l : List α), l.length = k * n → (pieces n k l).flatten = l
  | 0, l, h => by
    have : l = [] := List.eq_nil_of_length_eq_zero (by simpa using h)
    subst this; rfl
  | k + 1, l, h => by
    simp only [pieces, List.flatten_cons]
    rw [pieces_flatten n k (l.drop n) (by rw [List.length_drop, h]; rw [Nat.succ_mul]; omega), List.take_append_drop]

theorem pieces_len {α} (n : Nat) : ∀ (k : Nat) (l : List α), l.length = k * n → ∀ x ∈ pieces n k l, x.length = n
  | 0, l, h => by simp [pieces]
  | k + 1, l, h => by
    rw [Nat.succ_mul] at h
    simp only [pieces, List.mem_cons, forall_eq_or_imp, List.length_take]
    refine ⟨by omega, pieces_len n k (l.drop n) (by rw [List.length_drop]; omega)⟩

theorem leavesOfAll_enum : ∀ (l : List (Tree Int)) (i : Nat), leavesOfAll (enumFrom i l) = (l.map leavesOf).flatten
  | [], _ => rfl
  | t :: l, i => by simp [enumFrom, leavesOfAll, leavesOfAll_enum l (i + 1)]

theorem nest_spec : ∀ (s : List Nat) (l : List Int), l.length = s.prod → Lists (nest s l) ∧ leavesOf (nest s l) = l
  | [], l, h => by
    simp only [List.prod_nil] at h
    obtain ⟨a, rfl⟩ := List.length_eq_one_iff.mp h
    exact ⟨.leaf _, rfl⟩
  | n :: s, l, h => by
    rw [List.prod_cons] at h
    have hp := pieces_len s.prod n l h
    refine ⟨?_, ?_⟩
    · simp only [nest]
      refine .list _ ?_
      intro t ht
      obtain ⟨x, hx, rfl⟩ := List.mem_map.mp ht
      exact (nest_spec s x (hp x hx)).1
    · simp only [nest, listNode, leavesOf, leavesOfAll_enum, List.map_map]
      have : (pieces s.prod n l).map (leavesOf ∘ nest s) = pieces s.prod n l := by
        conv => rhs; rw [← List.map_id (pieces s.prod n l)]
        exact List.map_congr_left fun x hx => (nest_spec s x (hp x hx)).2
      rw [this, pieces_flatten s.prod n l h]

theorem mapM_available (av : List Int) : ∀ l : List Int, (∀ i ∈ l, i ∈ av) → (l.mapM fun i => if i ∈ av then some i else none) = some l
  | [], _ => rfl
  | a :: l, h => by simp [List.mapM_cons, h a (by simp), mapM_available av l (fun i hi => h i (List.mem_cons_of_mem _ hi))]

theorem mapM_missing (av : List Int) : ∀ l : List Int, (∃ i ∈ l, i ∉ av) → (l.mapM fun i => if i ∈ av then some i else none) = none
  | [], h => by simp at h
  | a :: l, h => by
    by_cases ha : a ∈ av
    · have : ∃ i ∈ l, i ∉ av := by
        obtain ⟨i, hi, hn⟩ := h
        rcases List.mem_cons.mp hi with rfl | hi
        · exact absurd ha hn
        · exact ⟨i, hi, hn⟩
      simp [List.mapM_cons, ha, mapM_missing av l this]
    · simp [List.mapM_cons, ha]

/-- A mesh and a spec that JAX accepts: as many devices as the shape says, a type for each axis, and no empty or one-element tuples in the spec. -/
structure JaxNamed.Valid (j : JaxNamed) : Prop where
  devices : j.devices.length = j.shape.prod
  types : j.types.length = j.axes.length
  spec : ∀ e ∈ j.spec, e = .none ∨ (∃ a, a ≠ [] ∧ e = .axis a) ∨ ∃ a b l, e = .tuple (a :: b :: l)

theorem read_jax (str : AxisType → Name) (hs : Function.Injective str) (j : JaxNamed) (hj : j.Valid) :
    ((ShardingMeta.named j.toMeta).toJson str).bind (ShardingMeta.ofJson str) =
      some (.named { j.toMeta with spec := j.spec.map asList, types := if j.types = [] then none else some j.types }) := by
  rw [C54_read_back str hs j.toMeta]
  · simp [JaxNamed.toMeta]
  · intro h
    rcases hj.spec _ h with h | ⟨_, _, h⟩ | ⟨_, _, _, h⟩ <;> cases h
  · intro m hm
    simp only [JaxNamed.toMeta, Option.some.injEq] at hm
    subst hm
    exact (nest_spec _ _ hj.devices).1

/-- Although the metadata may differ, the sharding made of it is the one that was saved, when its devices are there — whatever other devices are. -/
theorem C54_jax (str : AxisType → Name) (hs : Function.Injective str) (available : List Int) (j : JaxNamed) (hj : j.Valid)
    (ha : ∀ i ∈ j.devices, i ∈ available) :
    ∃ s, ((ShardingMeta.named j.toMeta).toJson str).bind (ShardingMeta.ofJson str) = some (.named s) ∧ s.toJax available = some j := by
  refine ⟨_, read_jax str hs j hj, ?_⟩
  have h1 : (j.shape.map Int.ofNat).map Int.toNat = j.shape := by simp [Function.comp_def]
  have h2 : (j.spec.map asList).map canonical = j.spec := by
    rw [List.map_map]
    conv => rhs; rw [← List.map_id j.spec]
    apply List.map_congr_left
    intro e he
    rcases hj.spec e he with rfl | ⟨a, h, rfl⟩ | ⟨a, b, l, rfl⟩
    · rfl
    · simp [asList, canonical, h]
    · rfl
  have h3 : (if j.types = [] then none else some j.types).getD (j.axes.map fun _ => AxisType.auto) = j.types := by
    by_cases ht : j.types = []
    · have : j.axes = [] := List.eq_nil_of_length_eq_zero (by rw [← hj.types, ht]; rfl)
      simp [ht, this]
    · simp [ht]
  simp only [Named.toJax, JaxNamed.toMeta, meshDevices, (nest_spec _ _ hj.devices).2, mapM_available available j.devices ha, h1, h2, h3,
    Option.bind_eq_bind, Option.bind_some, hj.devices, if_true, Option.pure_def]

/-- A sharding is not made of other devices than the saved ones: if one of them is missing, there is an error. -/
theorem C54_missing_device (str : AxisType → Name) (hs : Function.Injective str) (available : List Int) (j : JaxNamed) (hj : j.Valid)
    (ha : ∃ i ∈ j.devices, i ∉ available) :
    ∃ s, ((ShardingMeta.named j.toMeta).toJson str).bind (ShardingMeta.ofJson str) = some (.named s) ∧ s.toJax available = none := by
  refine ⟨_, read_jax str hs j hj, ?_⟩
  simp only [Named.toJax, JaxNamed.toMeta, meshDevices, (nest_spec _ _ hj.devices).2, mapM_missing available j.devices ha,
    Option.bind_eq_bind, Option.bind_none]

/-- The sharding of one device is on a device of that name (in the old or the new notation), and is refused only if there is none. -/
theorem C54_single_device (l : List Name) (d : Name) :
    (∀ x, singleToJax l d = some x → x ∈ l ∧ singleEq x d = true) ∧ (singleToJax l d = none → ∀ x ∈ l, singleEq x d = false) := by
  refine ⟨?_, ?_⟩
  · intro x h
    refine ⟨List.mem_reverse.mp (List.mem_of_find?_eq_some h), ?_⟩
    simpa [singleEq] using List.find?_some h
  · intro h x hx
    have := (List.find?_eq_none.mp h) x (List.mem_reverse.mpr hx)
    simpa [singleEq] using this

/-- Two devices compare equal when their names are equal, and so do the old and new names of a CPU device. -/
theorem C54_cpu_names (d r : Name) : singleEq d d = true ∧
    singleEq ("TFRT_CPU_".toList ++ r) ("cpu:".toList ++ r) = true := by
  simp [singleEq, newName]

/-! ## The hypotheses are met -/

def exStr : AxisType → Name
  | .auto => ['A']
  | .explicit => ['E']
  | .manual => ['M']

theorem exStr_inj : Function.Injective exStr := by
  intro a b; cases a <;> cases b <;> simp [exStr]

def exJax : JaxNamed := ⟨[3, 2, 1, 0], [2, 2], [['x'], ['y']], [.auto, .manual], [.none, .axis ['x'], .tuple [['x'], ['y']]]⟩

example : exJax.Valid := ⟨by decide, by decide, by
  intro e he
  simp [exJax] at he
  rcases he with rfl | rfl | rfl
  · exact .inl rfl
  · exact .inr (.inl ⟨_, by simp, rfl⟩)
  · exact .inr (.inr ⟨_, _, _, rfl⟩)⟩
example : ∀ i ∈ exJax.devices, i ∈ [0, 1, 2, 3, 4, 5] := by decide
example : ∃ i ∈ exJax.devices, i ∉ [0, 1, 4, 5] := by decide
example : SpecElem.unconstrained ∉ exJax.toMeta.spec ∧ SpecElem.tuple [['x'], ['y']] ∈ exJax.toMeta.spec := by decide
example : (nest [2, 2] [3, 2, 1, 0]) = listNode [listNode [.leaf 3, .leaf 2], listNode [.leaf 1, .leaf 0]] := by decide
example : singleToJax ["TFRT_CPU_0".toList, "TFRT_CPU_1".toList] "cpu:1".toList = some "TFRT_CPU_1".toList := by
  simp [singleToJax, newName]
example : (⟨[2], [['x']], [.axis ['x'], .none], some [.auto], some (listNode [.leaf 0, .leaf 1])⟩ : Named).types ≠ some [] := by decide

end Verif.TreeMetadata
