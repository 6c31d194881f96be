import Verif.Safetensors.Model

/-!
# C77: the byte runs of a shard are the shard
-/
namespace Verif.Safetensors

/-! ## Specification: arrays in row-major order -/

/-- The bounds select a part of an array of this shape. -/
def Valid : List (Nat × Nat) → List Nat → Prop
  | [], [] => True
  | b :: bs, d :: ds => b.1 ≤ b.2 ∧ b.2 ≤ d ∧ Valid bs ds
  | _, _ => False

/-- The index lies within the bounds. -/
def InBox : List Nat → List (Nat × Nat) → Prop
  | [], [] => True
  | i :: is, b :: bs => b.1 ≤ i ∧ i < b.2 ∧ InBox is bs
  | _, _ => False

/-- The number of elements. -/
def count : List Nat → Nat
  | [] => 1
  | d :: ds => d * count ds

/-- The position of an element in row-major order. -/
def flat : List Nat → List Nat → Nat
  | _ :: ds, i :: is => i * count ds + flat ds is
  | _, _ => 0

/-- The shape of the part within the bounds. -/
def width (bounds : List (Nat × Nat)) : List Nat := bounds.map fun b => b.2 - b.1

/-- The index relative to the part. -/
def relative : List Nat → List (Nat × Nat) → List Nat
  | i :: is, b :: bs => (i - b.1) :: relative is bs
  | _, _ => []

/-! ## Slices -/

theorem slice_append (file : Bytes) (off a b : Nat) :
    slice file off a ++ slice file (off + a) b = slice file off (a + b) := by
  unfold slice
  rw [List.take_add, List.drop_drop]

theorem slice_zero (file : Bytes) (off : Nat) : slice file off 0 = [] := by simp [slice]

theorem slice_flatMap (file : Bytes) (off s : Nat) (lo n : Nat) :
    ((List.range' lo n).flatMap fun i => slice file (off + i * s) s) =
      slice file (off + lo * s) (n * s) := by
  induction n generalizing lo with
  | zero => simp [slice_zero]
  | succ n ih =>
    rw [List.range'_succ, List.flatMap_cons, ih (lo + 1)]
    have : off + (lo + 1) * s = off + lo * s + s := by rw [Nat.add_mul, Nat.one_mul]; omega
    rw [this, slice_append, Nat.add_comm s, Nat.add_mul, Nat.one_mul]

theorem slice_length (file : Bytes) (off len : Nat) (h : off + len ≤ file.length) :
    (slice file off len).length = len := by
  simp only [slice, List.length_take, List.length_drop]; omega

theorem slice_slice (file : Bytes) (off len a b : Nat) (h : a + b ≤ len) :
    slice (slice file off len) a b = slice file (off + a) b := by
  unfold slice
  rw [List.drop_take, List.take_take, List.drop_drop]
  congr 1; omega

theorem slice_append_left (x y : Bytes) (a b : Nat) (h : a + b ≤ x.length) :
    slice (x ++ y) a b = slice x a b := by
  unfold slice
  rw [List.drop_append, List.take_append]
  have h1 : b - (x.drop a).length = 0 := by rw [List.length_drop]; omega
  rw [h1]; simp

theorem slice_append_right (x y : Bytes) (a b : Nat) : slice (x ++ y) (x.length + a) b = slice y a b := by
  unfold slice
  rw [List.drop_append]
  have : x.length + a - x.length = a := by omega
  rw [List.drop_of_length_le (show x.length ≤ x.length + a by omega), this]
  simp

/-! ## The runs by recursion on the dimensions -/

/-- Bytes in a whole array. -/
def total (item : Nat) : List Nat → Nat
  | [] => item
  | d :: ds => total item ds * d

theorem foldr_fst (item : Nat) (shape : List Nat) :
    (shape.foldr (fun d s => (s.1 * d, s.1 :: s.2)) (item, ([] : List Nat))).1 = total item shape := by
  induction shape with
  | nil => rfl
  | cons d ds ih => simp only [List.foldr_cons, ih, total]

theorem byteStrides_cons (item d : Nat) (ds : List Nat) :
    byteStrides (d :: ds) item = total item ds :: byteStrides ds item := by
  simp only [byteStrides, List.foldr_cons, foldr_fst]

theorem total_count (item : Nat) (shape : List Nat) : total item shape = count shape * item := by
  induction shape with
  | nil => simp [total, count]
  | cons d ds ih => simp only [total, count, ih]; rw [Nat.mul_comm, Nat.mul_assoc]

/-- All dimensions are whole. -/
def allFull (bounds : List (Nat × Nat)) (shape : List Nat) : Prop :=
  fullTrailing bounds shape = shape.length

theorem fullTrailing_le (bounds : List (Nat × Nat)) (shape : List Nat)
    (hl : bounds.length = shape.length) : fullTrailing bounds shape ≤ shape.length := by
  unfold fullTrailing
  have h1 := (List.takeWhile_sublist (fun x : (Nat × Nat) × Nat => decide (x.1 = (0, x.2)))
    (l := (bounds.zip shape).reverse)).length_le
  simp only [List.length_reverse, List.length_zip, hl, Nat.min_self] at h1
  exact h1

theorem fullTrailing_cons (b : Nat × Nat) (bs : List (Nat × Nat)) (d : Nat) (ds : List Nat)
    (hl : bs.length = ds.length) :
    fullTrailing (b :: bs) (d :: ds) =
      if fullTrailing bs ds = ds.length then ds.length + (if b = (0, d) then 1 else 0)
      else fullTrailing bs ds := by
  unfold fullTrailing
  rw [List.zip_cons_cons, List.reverse_cons, List.takeWhile_append]
  have hlen : (bs.zip ds).reverse.length = ds.length := by
    simp only [List.length_reverse, List.length_zip, hl, Nat.min_self]
  rw [hlen]
  split
  · rw [List.length_append, hlen]
    by_cases hb : b = (0, d)
    · simp [hb]
    · simp [hb]
  · rfl

theorem runOffset_cons (base s : Nat) (ss : List Nat) (x : Nat) (xs : List Nat) :
    runOffset base (s :: ss) (x :: xs) = runOffset (base + x * s) ss xs := by
  simp [runOffset]

/-- The runs, dimension by dimension. -/
def recRuns (item : Nat) : List (Nat × Nat) → List Nat → Nat → List (Nat × Nat)
  | b :: bs, _ :: ds, base =>
    if fullTrailing bs ds = ds.length then [(base + b.1 * total item ds, (b.2 - b.1) * total item ds)]
    else (List.range' b.1 (b.2 - b.1)).flatMap fun i => recRuns item bs ds (base + i * total item ds)
  | _, _, base => [(base, item)]

theorem unsorted_rec (item : Nat) (shape : List Nat) : ∀ (bounds : List (Nat × Nat)) (base : Nat),
    bounds.length = shape.length → unsortedRuns bounds shape item base = recRuns item bounds shape base := by
  induction shape with
  | nil =>
    intro bounds base hl
    cases bounds with
    | nil => simp [unsortedRuns, recRuns]
    | cons b bs => simp at hl
  | cons d ds ih =>
    intro bounds base hl
    cases bounds with
    | nil => simp at hl
    | cons b bs =>
      have hl' : bs.length = ds.length := by simpa using hl
      unfold unsortedRuns recRuns
      rw [if_neg (by simp), fullTrailing_cons b bs d ds hl', byteStrides_cons]
      by_cases hf : fullTrailing bs ds = ds.length
      · simp only [hf, if_true, List.length_cons]
        by_cases hb : b = (0, d)
        · subst hb
          simp [Nat.mul_comm]
        · simp only [hb, if_false, Nat.add_zero]
          rw [if_neg (by omega)]
          have : ds.length + 1 - ds.length - 1 = 0 := by omega
          rw [this]
          simp [product, runOffset]
      · have hle := fullTrailing_le bs ds hl'
        simp only [hf, if_false, List.length_cons]
        rw [if_neg (by omega)]
        have hb : ds.length + 1 - fullTrailing bs ds - 1 = (ds.length - fullTrailing bs ds - 1) + 1 := by
          omega
        rw [hb]
        simp only [List.getElem?_cons_succ, List.take_succ_cons, List.map_cons, product, List.map_flatMap,
          List.map_map]
        congr 1
        funext i
        rw [← ih bs (base + i * total item ds) hl']
        unfold unsortedRuns
        rw [if_neg (by omega)]
        simp only [hf, if_false]
        apply List.map_congr_left
        intro outer _
        simp only [Function.comp, runOffset_cons]
        congr 2
        omega

/-- The part of the array within the bounds, dimension by dimension. -/
def region (file : Bytes) (item : Nat) : List (Nat × Nat) → List Nat → Nat → Bytes
  | b :: bs, _ :: ds, base =>
    (List.range' b.1 (b.2 - b.1)).flatMap fun i => region file item bs ds (base + i * total item ds)
  | _, _, base => slice file base item

theorem region_full (file : Bytes) (item : Nat) (shape : List Nat) :
    ∀ (bounds : List (Nat × Nat)) (base : Nat), bounds.length = shape.length →
      fullTrailing bounds shape = shape.length →
      region file item bounds shape base = slice file base (total item shape) := by
  induction shape with
  | nil =>
    intro bounds base hl _
    cases bounds with
    | nil => rfl
    | cons b bs => simp at hl
  | cons d ds ih =>
    intro bounds base hl hf
    cases bounds with
    | nil => simp at hl
    | cons b bs =>
      have hl' : bs.length = ds.length := by simpa using hl
      have hle := fullTrailing_le bs ds hl'
      rw [fullTrailing_cons b bs d ds hl'] at hf
      by_cases hf' : fullTrailing bs ds = ds.length
      · simp only [hf', if_true, List.length_cons] at hf
        by_cases hb : b = (0, d)
        · subst hb
          simp only [region, Nat.sub_zero]
          have : (fun i => region file item bs ds (base + i * total item ds)) =
              fun i => slice file (base + i * total item ds) (total item ds) := by
            funext i; exact ih bs _ hl' hf'
          rw [this, slice_flatMap, total]
          simp [Nat.mul_comm]
        · simp [hb] at hf
      · simp only [hf', if_false, List.length_cons] at hf
        omega

theorem recRuns_region (file : Bytes) (item : Nat) (shape : List Nat) :
    ∀ (bounds : List (Nat × Nat)) (base : Nat), bounds.length = shape.length →
      ((recRuns item bounds shape base).flatMap fun r => slice file r.1 r.2) =
        region file item bounds shape base := by
  induction shape with
  | nil =>
    intro bounds base hl
    cases bounds with
    | nil => simp [recRuns, region]
    | cons b bs => simp at hl
  | cons d ds ih =>
    intro bounds base hl
    cases bounds with
    | nil => simp at hl
    | cons b bs =>
      have hl' : bs.length = ds.length := by simpa using hl
      simp only [recRuns, region]
      split
      · rename_i hf
        have : (fun i => region file item bs ds (base + i * total item ds)) =
            fun i => slice file (base + i * total item ds) (total item ds) := by
          funext i; exact region_full file item ds bs _ hl' hf
        rw [this, slice_flatMap]
        simp
      · rw [List.flatMap_assoc]
        congr 1
        funext i
        exact ih bs _ hl'

/-! ## The runs are already sorted -/

theorem recRuns_bounds (item : Nat) (shape : List Nat) :
    ∀ (bounds : List (Nat × Nat)) (base : Nat), Valid bounds shape →
      (∀ r ∈ recRuns item bounds shape base, base ≤ r.1 ∧ r.1 + r.2 ≤ base + total item shape) ∧
      (recRuns item bounds shape base).Pairwise fun a b => a.1 + a.2 ≤ b.1 := by
  induction shape with
  | nil =>
    intro bounds base hv
    cases bounds with
    | nil => simp [recRuns, total]
    | cons b bs => simp [Valid] at hv
  | cons d ds ih =>
    intro bounds base hv
    cases bounds with
    | nil => simp [Valid] at hv
    | cons b bs =>
      obtain ⟨h1, h2, hv'⟩ := hv
      have hstep : ∀ i, i < d → i * total item ds + total item ds ≤ total item ds * d := by
        intro i hi
        have := Nat.mul_le_mul_right (total item ds) (Nat.succ_le_of_lt hi)
        rw [Nat.succ_mul, Nat.mul_comm d] at this
        exact this
      simp only [recRuns]
      split
      · constructor
        · intro r hr
          simp only [List.mem_singleton] at hr
          subst hr
          simp only [total]
          have e1 : b.1 * total item ds + (b.2 - b.1) * total item ds = b.2 * total item ds := by
            rw [← Nat.add_mul]; congr 1; omega
          have e2 : b.2 * total item ds ≤ total item ds * d := by
            rw [Nat.mul_comm]; exact Nat.mul_le_mul_left _ h2
          exact ⟨Nat.le_add_right _ _, by omega⟩
        · simp
      · constructor
        · intro r hr
          obtain ⟨i, hi, hr⟩ := List.mem_flatMap.1 hr
          rw [List.mem_range'_1] at hi
          obtain ⟨e1, e2⟩ := (ih bs (base + i * total item ds) hv').1 r hr
          have := hstep i (by omega)
          simp only [total]
          omega
        · rw [List.pairwise_flatMap]
          constructor
          · intro i _
            exact (ih bs _ hv').2
          · refine List.Pairwise.imp ?_ (List.pairwise_lt_range' (s := b.1) (n := b.2 - b.1))
            intro i j hij x hx y hy
            obtain ⟨_, e2⟩ := (ih bs (base + i * total item ds) hv').1 x hx
            obtain ⟨e3, _⟩ := (ih bs (base + j * total item ds) hv').1 y hy
            have := Nat.mul_le_mul_right (total item ds) (Nat.succ_le_of_lt hij)
            rw [Nat.succ_mul] at this
            omega

theorem unsorted_const (bounds : List (Nat × Nat)) (shape : List Nat) (item base : Nat) :
    ∃ len, ∀ r ∈ unsortedRuns bounds shape item base, r.2 = len := by
  unfold unsortedRuns
  split
  · exact ⟨item, by simp⟩
  · simp only
    split
    · exact ⟨_, by simp; rfl⟩
    · exact ⟨_, fun r hr => by
        obtain ⟨_, _, rfl⟩ := List.mem_map.1 hr
        rfl⟩

theorem valid_length : ∀ (bounds : List (Nat × Nat)) (shape : List Nat), Valid bounds shape →
    bounds.length = shape.length
  | [], [], _ => rfl
  | _ :: bs, _ :: ds, h => by simp [valid_length bs ds h.2.2]
  | [], _ :: _, h => by simp [Valid] at h
  | _ :: _, [], h => by simp [Valid] at h

theorem pairwise_and_mem {α : Type} {R : α → α → Prop} {P : α → Prop} {l : List α}
    (h : l.Pairwise R) (hp : ∀ x ∈ l, P x) : l.Pairwise fun a b => R a b ∧ P a ∧ P b := by
  induction l with
  | nil => simp
  | cons x l ih =>
    rw [List.pairwise_cons] at h ⊢
    refine ⟨fun y hy => ⟨h.1 y hy, hp x (by simp), hp y (List.mem_cons_of_mem _ hy)⟩, ?_⟩
    exact ih h.2 fun y hy => hp y (List.mem_cons_of_mem _ hy)

theorem byteRuns_rec (bounds : List (Nat × Nat)) (shape : List Nat) (hv : Valid bounds shape)
    (item base : Nat) : byteRuns bounds shape item base = recRuns item bounds shape base := by
  have hl := valid_length _ _ hv
  have hu := unsorted_rec item shape bounds base hl
  unfold byteRuns
  rw [List.mergeSort_of_pairwise, hu]
  obtain ⟨len, hlen⟩ := unsorted_const bounds shape item base
  have hp := (recRuns_bounds item shape bounds base hv).2
  rw [← hu] at hp
  refine List.Pairwise.imp ?_ (pairwise_and_mem hp hlen)
  rintro a b ⟨h, ha, hb⟩
  simp only [pairLe, Bool.or_eq_true, Bool.and_eq_true, decide_eq_true_eq]
  omega

/-! ## Elements -/

theorem region_length (file : Bytes) (item : Nat) (shape : List Nat) :
    ∀ (bounds : List (Nat × Nat)) (base : Nat), Valid bounds shape →
      base + total item shape ≤ file.length →
      (region file item bounds shape base).length = count (width bounds) * item := by
  induction shape with
  | nil =>
    intro bounds base hv hf
    cases bounds with
    | nil => simp only [region, width, List.map_nil, count, Nat.one_mul]; exact slice_length _ _ _ hf
    | cons b bs => simp [Valid] at hv
  | cons d ds ih =>
    intro bounds base hv hf
    cases bounds with
    | nil => simp [Valid] at hv
    | cons b bs =>
      obtain ⟨h1, h2, hv'⟩ := hv
      simp only [region, List.length_flatMap]
      have hc : ∀ i ∈ List.range' b.1 (b.2 - b.1),
          (region file item bs ds (base + i * total item ds)).length = count (width bs) * item := by
        intro i hi
        rw [List.mem_range'_1] at hi
        apply ih bs _ hv'
        have := Nat.mul_le_mul_right (total item ds) (show i + 1 ≤ d by omega)
        rw [Nat.add_mul, Nat.one_mul, Nat.mul_comm d] at this
        simp only [total] at hf
        omega
      rw [List.map_congr_left hc]
      simp only [List.map_const', List.length_range', List.sum_replicate_nat, width, List.map_cons, count]
      rw [Nat.mul_assoc]

theorem flatMap_slice (f : Nat → Bytes) (lo n S i r L : Nat) (hf : ∀ x, lo ≤ x → x < lo + n → (f x).length = S)
    (hi : i < n) (hr : r + L ≤ S) :
    slice ((List.range' lo n).flatMap f) (i * S + r) L = slice (f (lo + i)) r L := by
  induction n generalizing lo i with
  | zero => omega
  | succ n ih =>
    rw [List.range'_succ, List.flatMap_cons]
    cases i with
    | zero =>
      simp only [Nat.zero_mul, Nat.zero_add, Nat.add_zero]
      rw [slice_append_left]
      rw [hf lo (by omega) (by omega)]
      exact hr
    | succ i =>
      have e : (i + 1) * S + r = (f lo).length + (i * S + r) := by
        rw [hf lo (by omega) (by omega), Nat.add_mul, Nat.one_mul]; omega
      rw [e, slice_append_right, ih (lo + 1) i (fun x h1 h2 => hf x (by omega) (by omega)) (by omega)]
      congr 2; omega

theorem flat_lt : ∀ (shape idx : List Nat), (∀ (bounds : List (Nat × Nat)), Valid bounds shape →
    InBox idx bounds → flat (width bounds) (relative idx bounds) < count (width bounds))
  | [], idx, bounds, hv, hb => by
    cases bounds with
    | nil => simp [width, flat, count]
    | cons b bs => simp [Valid] at hv
  | d :: ds, idx, bounds, hv, hb => by
    cases bounds with
    | nil => simp [Valid] at hv
    | cons b bs =>
      cases idx with
      | nil => simp [InBox] at hb
      | cons i is =>
        obtain ⟨h1, h2, h3⟩ := hb
        have := flat_lt ds is bs hv.2.2 h3
        simp only [width, List.map_cons, relative, flat, count] at *
        have hm := Nat.mul_le_mul_right (count (bs.map fun b => b.2 - b.1))
          (show (i - b.1) + 1 ≤ b.2 - b.1 by omega)
        rw [Nat.add_mul, Nat.one_mul] at hm
        omega

theorem region_elem (file : Bytes) (item : Nat) (shape : List Nat) :
    ∀ (bounds : List (Nat × Nat)) (base : Nat) (idx : List Nat), Valid bounds shape → InBox idx bounds →
      base + total item shape ≤ file.length →
      slice (region file item bounds shape base) (flat (width bounds) (relative idx bounds) * item) item =
        slice file (base + flat shape idx * item) item := by
  induction shape with
  | nil =>
    intro bounds base idx hv hb hf
    cases bounds with
    | nil =>
      simp only [region, width, List.map_nil, flat, Nat.zero_mul, Nat.add_zero]
      rw [slice_slice _ _ _ _ _ (by omega)]; rfl
    | cons b bs => simp [Valid] at hv
  | cons d ds ih =>
    intro bounds base idx hv hb hf
    cases bounds with
    | nil => simp [Valid] at hv
    | cons b bs =>
      cases idx with
      | nil => simp [InBox] at hb
      | cons i is =>
        obtain ⟨h1, h2, hv'⟩ := hv
        obtain ⟨hb1, hb2, hb3⟩ := hb
        have hfit : ∀ x, x < d → base + x * total item ds + total item ds ≤ file.length := by
          intro x hx
          have := Nat.mul_le_mul_right (total item ds) (show x + 1 ≤ d by omega)
          rw [Nat.add_mul, Nat.one_mul, Nat.mul_comm d] at this
          simp only [total] at hf
          omega
        have hlt := flat_lt ds is bs hv' hb3
        have hw : width (b :: bs) = (b.2 - b.1) :: width bs := rfl
        simp only [region, hw, relative, flat]
        rw [Nat.add_mul, Nat.mul_assoc]
        rw [flatMap_slice _ b.1 (b.2 - b.1) (count (width bs) * item) (i - b.1)
          (flat (width bs) (relative is bs) * item) item]
        · have e : b.1 + (i - b.1) = i := by omega
          rw [e, ih bs _ is hv' hb3 (hfit i (by omega))]
          congr 1
          rw [total_count, Nat.add_mul, Nat.mul_assoc]
          omega
        · intro x hx1 hx2
          exact region_length file item ds bs _ hv' (hfit x (by omega))
        · omega
        · have := Nat.mul_le_mul_right item (show flat (width bs) (relative is bs) + 1 ≤ count (width bs) by omega)
          rw [Nat.add_mul, Nat.one_mul] at this
          exact this

/-! ## The property -/

/-- C77: read one after the other, the byte runs of a shard make up the shard: they are as long as the
shard, and every element of the shard is, at its row-major position, the element of the tensor with the
same index.  The tensor lies in the file in row-major order from `base` on. -/
theorem C77_runs_elements (file : Bytes) (bounds : List (Nat × Nat)) (shape : List Nat)
    (item base : Nat) (hv : Valid bounds shape) (hfile : base + count shape * item ≤ file.length) :
    let buffer := (byteRuns bounds shape item base).flatMap fun r => slice file r.1 r.2
    buffer.length = count (width bounds) * item ∧
    ∀ idx, InBox idx bounds →
      slice buffer (flat (width bounds) (relative idx bounds) * item) item =
        slice file (base + flat shape idx * item) item := by
  simp only
  rw [byteRuns_rec bounds shape hv, recRuns_region file item shape bounds base (valid_length _ _ hv)]
  rw [← total_count] at hfile
  exact ⟨region_length file item shape bounds base hv hfile,
    fun idx hi => region_elem file item shape bounds base idx hv hi hfile⟩

/-- C77: no byte outside the tensor is read for a shard, and no byte is read twice; the runs come in the
order of the file. -/
theorem C77_runs_disjoint (bounds : List (Nat × Nat)) (shape : List Nat) (item base : Nat)
    (hv : Valid bounds shape) :
    (∀ r ∈ byteRuns bounds shape item base, base ≤ r.1 ∧ r.1 + r.2 ≤ base + count shape * item) ∧
    (byteRuns bounds shape item base).Pairwise fun a b => a.1 + a.2 ≤ b.1 := by
  rw [byteRuns_rec bounds shape hv, ← total_count]
  exact recRuns_bounds item shape bounds base hv

theorem takeWhile_all {α : Type} (p : α → Bool) (l : List α) (h : ∀ x ∈ l, p x = true) :
    l.takeWhile p = l := by
  have := List.takeWhile_append_of_pos (p := p) (l₁ := l) (l₂ := []) h
  simpa using this

theorem fullTrailing_whole (bs : List (Nat × Nat)) (ds : List Nat)
    (hl : bs.length = ds.length) (h : ∀ x ∈ bs.zip ds, x.1 = (0, x.2)) : fullTrailing bs ds = ds.length := by
  unfold fullTrailing
  rw [takeWhile_all]
  · simp [hl]
  · intro x hx
    rw [List.mem_reverse] at hx
    simp [h x hx]

/-- C77: a shard that takes all dimensions but the first whole is a single run. -/
theorem C77_leading_single (b : Nat × Nat) (bs : List (Nat × Nat)) (d : Nat) (ds : List Nat)
    (item base : Nat) (hv : Valid (b :: bs) (d :: ds)) (hwhole : ∀ x ∈ bs.zip ds, x.1 = (0, x.2)) :
    byteRuns (b :: bs) (d :: ds) item base =
      [(base + b.1 * (count ds * item), (b.2 - b.1) * (count ds * item))] := by
  rw [byteRuns_rec _ _ hv, recRuns, if_pos, total_count]
  exact fullTrailing_whole bs ds (valid_length _ _ hv.2.2) hwhole

/-- C77, non-vacuity: columns 1 and 2 of rows 1 and 2 of a 3 by 4 array of two-byte elements are two
runs; the element with index (2, 1) is the third of the shard. -/
theorem C77_nonvacuous :
    Valid [(1, 3), (1, 3)] [3, 4] ∧ InBox [2, 1] [(1, 3), (1, 3)] ∧
      unsortedRuns [(1, 3), (1, 3)] [3, 4] 2 100 = [(110, 4), (118, 4)] ∧
      byteRuns [(1, 3), (1, 3)] [3, 4] 2 100 = [(110, 4), (118, 4)] ∧
      flat (width [(1, 3), (1, 3)]) (relative [2, 1] [(1, 3), (1, 3)]) = 2 ∧ flat [3, 4] [2, 1] = 9 ∧
      count [3, 4] * 2 = 24 := by
  have hv : Valid [(1, 3), (1, 3)] [3, 4] := by simp [Valid]
  refine ⟨hv, by simp [InBox], by decide, ?_, by decide, by decide, by decide⟩
  rw [byteRuns_rec _ _ hv]
  decide

end Verif.Safetensors
