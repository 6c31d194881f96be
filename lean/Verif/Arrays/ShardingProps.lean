import Verif.Arrays.Sharding
import Mathlib.Algebra.BigOperators.Group.List.Basic
import Mathlib.Data.Nat.GCD.Basic
import Mathlib.Tactic.Ring

/-!
# Properties of maximal shardings (C38)

Specification.  `Sharding.Valid`: one size per mesh axis, distinct axis names, and every axis name in the
partition spec names a mesh axis, used for one dimension only.  `Sharding.sizeOf`: the size of a mesh axis.
`Sharding.shards`: in how many parts the array is cut.
-/

namespace Verif.Arrays.Sharding

/-- The size of a mesh axis. -/
def Sharding.sizeOf (s : Sharding) (name : Nat) : Option Nat := ((s.meshAxes.zip s.meshShape).find? (·.1 == name)).map (·.2)

/-- What `jax` requires of a mesh and a partition spec for an array of the given shape on `n` devices. -/
structure Valid (n : Nat) (shape : List Nat) (s : Sharding) : Prop where
  sizes : s.meshShape.length = s.meshAxes.length
  names : s.meshAxes.Nodup
  /-- every device is used exactly once -/
  devices : s.meshShape.prod = n
  rank : s.spec.length ≤ shape.length
  /-- a partitioned dimension is divisible by the size of its mesh axis -/
  divisible : ∀ (i a : Nat), s.spec[i]? = some (some a) → ∃ k d, s.sizeOf a = some k ∧ shape[i]? = some d ∧ 1 < k ∧ k ∣ d
  /-- no mesh axis is used twice -/
  once : ∀ (i j a : Nat), s.spec[i]? = some (some a) → s.spec[j]? = some (some a) → i = j

/-- In how many parts the array is cut. -/
def Sharding.shards (s : Sharding) : Nat := (s.spec.map fun a => match a with
  | none => 1
  | some a => (s.sizeOf a).getD 1).prod

/-! ### Lemmas -/

structure Inv (n : Nat) (shape : List Nat) (st : St) : Prop where
  pos : 0 < st.avail
  lens : st.meshShape.length = st.meshAxes.length
  axes : st.meshAxes = List.range st.next
  prod : st.meshShape.prod * st.avail = n
  rank : st.partition.length = shape.length
  used : ∀ (i a : Nat), st.partition[i]? = some (some a) →
    ∃ k d : Nat, st.meshShape[a]? = some k ∧ shape[i]? = some d ∧ 1 < k ∧ k ∣ d
  once : ∀ (i j a : Nat), st.partition[i]? = some (some a) → st.partition[j]? = some (some a) → i = j
  fresh : ∀ (i a : Nat), st.partition[i]? = some (some a) → a < st.next

theorem Inv.lenN {n : Nat} {shape : List Nat} {st : St} (h : Inv n shape st) : st.meshShape.length = st.next := by
  rw [h.lens, h.axes]; simp

theorem inv_step {n : Nat} {shape : List Nat} {st : St} (h : Inv n shape st) {i d : Nat} (hd : shape[i]? = some d)
    (hlt : ¬ d < st.avail) (hg : Nat.gcd d st.avail ≠ 1) :
    Inv n shape { avail := st.avail / Nat.gcd d st.avail, partition := st.partition.set i (some st.next),
                  meshShape := st.meshShape ++ [Nat.gcd d st.avail], meshAxes := st.meshAxes ++ [st.next],
                  next := st.next + 1 } := by
  have hp := h.pos
  have hgp : 0 < Nat.gcd d st.avail := Nat.gcd_pos_of_pos_right _ hp
  have hgd := Nat.gcd_dvd_right d st.avail
  have hlen := h.lenN
  have hir : i < st.partition.length := by
    rw [h.rank]; exact (List.getElem?_eq_some_iff.mp hd).1
  refine ⟨?_, ?_, ?_, ?_, ?_, ?_, ?_, ?_⟩
  · exact Nat.div_pos (Nat.le_of_dvd hp hgd) hgp
  · simp [h.lens]
  · simp [h.axes, List.range_succ]
  · simp only [List.prod_append, List.prod_cons, List.prod_nil, Nat.mul_one]
    rw [Nat.mul_assoc, Nat.mul_div_cancel' hgd]
    exact h.prod
  · simp [h.rank]
  · intro j a hj
    by_cases hij : i = j
    · subst hij
      simp [hir] at hj
      subst hj
      refine ⟨Nat.gcd d st.avail, d, ?_, hd, by omega, Nat.gcd_dvd_left _ _⟩
      rw [← hlen]; simp
    · simp only [List.getElem?_set_ne hij] at hj
      obtain ⟨k, d', h1, h2⟩ := h.used j a hj
      refine ⟨k, d', ?_, h2⟩
      have := (List.getElem?_eq_some_iff.mp h1).1
      simp only
      rw [List.getElem?_append_left this]; exact h1
  · intro j k a hj hk
    simp only at hj hk
    by_cases hij : i = j
    · by_cases hik : i = k
      · omega
      · subst hij
        simp [hir] at hj
        rw [List.getElem?_set_ne hik] at hk
        have := h.fresh k a hk
        omega
    · rw [List.getElem?_set_ne hij] at hj
      by_cases hik : i = k
      · subst hik
        simp [hir] at hk
        have := h.fresh j a hj
        omega
      · rw [List.getElem?_set_ne hik] at hk
        exact h.once j k a hj hk
  · intro j a hj
    simp only at hj ⊢
    by_cases hij : i = j
    · subst hij
      simp [hir] at hj
      omega
    · rw [List.getElem?_set_ne hij] at hj
      have := h.fresh j a hj
      omega

theorem inv_loop {n : Nat} {shape : List Nat} : ∀ (order : List Nat) (st : St), Inv n shape st → Inv n shape (loop shape order st)
  | [], st, h => h
  | i :: order, st, h => by
    simp only [loop]
    split
    · exact h
    · split
      · exact inv_loop order st h
      · next d hd =>
        split
        · exact inv_loop order st h
        · next hlt =>
          split
          · exact inv_loop order st h
          · next hg => exact inv_loop order _ (inv_step h hd hlt hg)

theorem inv_initial {n : Nat} (hn : 0 < n) (shape : List Nat) : Inv n shape ⟨n, shape.map fun _ => none, [], [], 0⟩ := by
  have no : ∀ (i a : Nat), (shape.map fun _ => (none : Option Nat))[i]? ≠ some (some a) := by
    intro i a h
    have := List.mem_of_getElem? h
    simp at this
  exact ⟨hn, rfl, rfl, by simp, by simp, fun i a h => absurd h (no i a), fun i _ a h => absurd h (no i a),
    fun i a h => absurd h (no i a)⟩

theorem sizeOf_range : ∀ (l : List Nat) (names : List Nat) (k : Nat), names = (List.range l.length).map (k + ·) → ∀ (a x : Nat),
    l[a]? = some x → ((names.zip l).find? (·.1 == k + a)).map (·.2) = some x
  | [], _, _, _, _, _, h => by simp at h
  | y :: l, names, k, e, a, x, h => by
    subst e
    rw [List.length_cons, List.range_succ_eq_map, List.map_cons, List.zip_cons_cons, List.find?_cons]
    cases a with
    | zero => simp at h ⊢; exact h
    | succ a =>
      have : (k + 0 == k + (a + 1)) = false := by simp
      simp only [this]
      have ih := sizeOf_range l ((List.range l.length).map (k + 1 + ·)) (k + 1) rfl a x (by simpa using h)
      have e1 : List.map (fun x => k + x) (List.map Nat.succ (List.range l.length)) = (List.range l.length).map (k + 1 + ·) := by
        rw [List.map_map]
        refine List.map_congr_left ?_
        intro b _
        simp only [Function.comp_apply]; omega
      rw [e1]
      have e2 : k + (a + 1) = k + 1 + a := by omega
      rw [e2]
      exact ih

theorem sizeOf_get {meshShape meshAxes : List Nat} {spec : List (Option Nat)} (h : meshAxes = List.range meshShape.length)
    {a x : Nat} (hx : meshShape[a]? = some x) : (Sharding.mk meshShape meshAxes spec).sizeOf a = some x := by
  unfold Sharding.sizeOf
  have := sizeOf_range meshShape meshAxes 0 (by rw [h]; simp) a x hx
  simpa using this

/-! ### Theorems -/

/-- C38: for every shape, number of devices and visiting order, the sharding constructed is valid: the mesh
sizes multiply to the number of devices, axis names are distinct, each is used for at most one dimension, and
a partitioned dimension is divisible by the size of its mesh axis (which is at least 2). -/
theorem C38_valid (order : List Nat) (deviceCount allDevices : Nat) (hn : 0 < deviceCount) (shape : List Nat) :
    Valid deviceCount shape (construct order deviceCount allDevices shape) := by
  have small : Valid deviceCount shape ⟨[deviceCount], [0], []⟩ :=
    ⟨rfl, by simp, by simp, by simp, by simp, by simp⟩
  unfold construct
  split
  · exact small
  · split
    · exact small
    · have h := inv_loop order _ (inv_initial hn shape)
      generalize loop shape order ⟨deviceCount, shape.map fun _ => none, [], [], 0⟩ = st at h
      have hlen := h.lenN
      simp only
      split
      · next ha =>
        have haxes : st.meshAxes ++ [st.next] = List.range (st.meshShape ++ [st.avail]).length := by
          simp [h.axes, hlen, List.range_succ]
        refine ⟨by simp [h.lens], ?_, by simp [h.prod], by rw [h.rank], ?_, h.once⟩
        · show (st.meshAxes ++ [st.next]).Nodup
          rw [haxes]; exact List.nodup_range
        · intro i a hi
          obtain ⟨k, d, h1, h2, h3, h4⟩ := h.used i a hi
          refine ⟨k, d, sizeOf_get haxes ?_, h2, h3, h4⟩
          rw [List.getElem?_append_left (List.getElem?_eq_some_iff.mp h1).1]; exact h1
      · next ha =>
        have h1 : st.avail = 1 := by have := h.pos; omega
        have haxes : st.meshAxes = List.range st.meshShape.length := by rw [h.axes, hlen]
        refine ⟨h.lens, ?_, ?_, by rw [h.rank], ?_, h.once⟩
        · show st.meshAxes.Nodup
          rw [h.axes]; exact List.nodup_range
        · have := h.prod
          rw [h1, Nat.mul_one] at this
          exact this
        · intro i a hi
          obtain ⟨k, d, h1, h2, h3, h4⟩ := h.used i a hi
          exact ⟨k, d, sizeOf_get haxes h1, h2, h3, h4⟩

/-- A sharding whose spec is empty or all `none` cuts nothing. -/
theorem C38_small_not_partitioned (order : List Nat) (deviceCount allDevices : Nat) (shape : List Nat)
    (h : ∀ d ∈ shape, d < allDevices) (hpos : 0 < allDevices) :
    (construct order deviceCount allDevices shape).shards = 1 := by
  unfold construct
  split
  · rfl
  · rw [if_pos]
    · rfl
    · clear * - h hpos
      induction shape with
      | nil => simpa using hpos
      | cons d l ih =>
        have := ih (fun x hx => h x (by simp [hx]))
        have := h d (by simp)
        simp only [List.foldr_cons]
        omega

/-- C38: an array with a dimension divisible by the number of devices, when that dimension is visited first
(it is if it is the largest one), is cut over all devices: no device holds a copy of another's part. -/
theorem C38_fully_partitioned (order : List Nat) (deviceCount allDevices : Nat) (hn : 1 < deviceCount) (shape : List Nat)
    (i d : Nat) (hd : shape[i]? = some d) (hpos : 0 < d) (hdvd : deviceCount ∣ d) (hall : allDevices ≤ d) :
    (construct (i :: order) deviceCount allDevices shape).shards = deviceCount := by
  have hne : shape ≠ [] := by rintro rfl; simp at hd
  have hmax : ¬ shape.foldr max 0 < allDevices := by
    have hm := List.mem_of_getElem? hd
    have : d ≤ shape.foldr max 0 := by
      clear * - hm
      induction shape with
      | nil => simp at hm
      | cons x l ih =>
        simp only [List.foldr_cons]
        rcases List.mem_cons.mp hm with rfl | hm
        · omega
        · have := ih hm; omega
    omega
  have hg : Nat.gcd d deviceCount = deviceCount := Nat.gcd_eq_right hdvd
  have hle := Nat.le_of_dvd hpos hdvd
  have hst : loop shape (i :: order) ⟨deviceCount, shape.map fun _ => none, [], [], 0⟩
      = ⟨1, (shape.map fun _ => none).set i (some 0), [deviceCount], [0], 1⟩ := by
    have hdiv : deviceCount / deviceCount = 1 := Nat.div_self (by omega)
    rw [loop]
    simp only [hd, hg]
    rw [if_neg (by omega), if_neg (by omega), if_neg (by omega), hdiv]
    cases order <;> simp [loop]
  unfold construct
  rw [if_neg hne, if_neg hmax, hst]
  simp only [gt_iff_lt, lt_irrefl, if_false, Sharding.shards]
  have hi := (List.getElem?_eq_some_iff.mp hd).1
  rw [List.map_set]
  have hsz : (Sharding.mk [deviceCount] [0] ((shape.map fun _ => none).set i (some 0))).sizeOf 0 = some deviceCount := by
    simp [Sharding.sizeOf]
  simp only [hsz, Option.getD_some, List.map_map, Function.comp_def]
  clear * - hi
  induction shape generalizing i with
  | nil => simp at hi
  | cons x l ih =>
    cases i with
    | zero => simp
    | succ i =>
      simp only [List.map_cons, List.set_cons_succ, List.prod_cons, Nat.one_mul]
      exact ih i (by simpa using hi)

/-- The array is "partitioned as much as possible" only under the greedy rule: a 18 x 4 array on 16 devices is
cut in 2 parts, although 2 x 4 parts divide it and the devices. -/
theorem C38_not_maximal_fails :
    (construct [0, 1] 16 16 [18, 4]).shards = 2 ∧ 2 ∣ 18 ∧ 4 ∣ 4 ∧ (2 * 4) ∣ 16 := by decide

/-- With an explicit subset of the devices, the size test uses the number of all devices: an array that could
be cut over the chosen `n` devices is replicated instead whenever there are more devices than its size. -/
theorem C38_subset_of_devices_not_partitioned_fails (n allDevices : Nat) (hn : 1 < n) (h : n < allDevices) :
    (construct [0] n allDevices [n]).shards = 1 ∧ (construct [0] n n [n]).shards = n := by
  constructor
  · exact C38_small_not_partitioned [0] n allDevices [n] (by simpa using h) (by omega)
  · exact C38_fully_partitioned [] n n hn [n] 0 n rfl (by omega) (dvd_refl n) (le_refl n)

-- non-vacuity: 12 x 8 on 8 devices: a (4) and b (2)
example : construct [0, 1] 8 8 [12, 8] = ⟨[4, 2], [0, 1], [some 0, some 1]⟩ := by decide
example : construct [0] 6 6 [9] = ⟨[3, 2], [0, 1], [some 0]⟩ := by decide

end Verif.Arrays.Sharding
