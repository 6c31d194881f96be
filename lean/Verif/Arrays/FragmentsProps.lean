import Verif.Arrays.Fragments
import Verif.Arrays.SlicesProps
import Mathlib.Tactic.Linarith
import Mathlib.Tactic.Ring

/-!
# Properties of fragments (C34, C35, C36)

Specification.  `InShape i shape`: `i` is a position of an array of that shape.  `Mem i idx`: position `i`
belongs to the index (one (start, stop, step) triple per axis).  `Within idx shape`: the index is forward and
inside the shape.  `Same a b`: the arrays have the same shape and the same elements.  `Piece A f`: the
fragment is a piece of the array `A`: its index lies within `A` and its value is `A[index]`.
-/

namespace Verif.Arrays

open Slices

/-- `i` is a position of an array of the given shape. -/
def InShape : List Int → List Nat → Prop
  | [], [] => True
  | x :: i, n :: shape => (0 ≤ x ∧ x < n) ∧ InShape i shape
  | _, _ => False

/-- Position `i` belongs to the index. -/
def Mem : List Int → List Tri → Prop
  | [], [] => True
  | x :: i, t :: ts => (t.start ≤ x ∧ x < t.stop ∧ ∃ k, x = t.start + t.step * k) ∧ Mem i ts
  | _, _ => False

/-- The index has one triple per axis, all forward and within the bounds of the axis. -/
def Within : List Tri → List Nat → Prop
  | [], [] => True
  | t :: ts, n :: shape => (0 ≤ t.start ∧ t.start ≤ t.stop ∧ t.stop ≤ n ∧ 1 ≤ t.step) ∧ Within ts shape
  | _, _ => False

/-- Two arrays are equal: same shape, same element at every position. -/
def Same {β} (a b : Nd β) : Prop := a.shape = b.shape ∧ ∀ i, InShape i a.shape → a.at_ i = b.at_ i

/-- The fragment is a piece of the array. -/
def Piece {β} (A : Nd β) (f : Frag β) : Prop :=
  Within f.index A.shape ∧ ∃ v w, f.value = some v ∧ A.slice f.index = some w ∧ Same v w

/-- Every position of the shape belongs to some fragment. -/
def Covered {β} (shape : List Nat) (l : List (Frag β)) : Prop :=
  ∀ i, InShape i shape → ∃ f ∈ l, Mem i f.index

/-! ### Lemmas -/

theorem lt_rangeLen {a b c k : Int} (hc : 0 < c) (hk : 0 ≤ k) : k < rangeLen a b c ↔ a + c * k < b := by
  unfold rangeLen
  rw [if_pos hc]
  split
  · next hab =>
    have h0 : 0 ≤ (b - a - 1) / c := Int.ediv_nonneg (by omega) (by omega)
    have h1 : k ≤ (b - a - 1) / c ↔ k * c ≤ b - a - 1 := Int.le_ediv_iff_mul_le hc
    rw [mul_comm] at h1
    constructor
    · intro h
      have := h1.mp (by omega)
      omega
    · intro h
      have := h1.mpr (by omega)
      omega
  · next hab =>
    have : 0 ≤ c * k := mul_nonneg (by omega) hk
    constructor
    · intro h; omega
    · intro h; omega

def axOf (idx : List Tri) : List (Int × Int × Nat) := idx.map fun t => (t.start, t.step, rangeLen t.start t.stop t.step)
def lens (idx : List Tri) : List Nat := idx.map fun t => rangeLen t.start t.stop t.step

theorem axes_within : ∀ {idx : List Tri} {shape : List Nat}, Within idx shape → axes idx shape = some (axOf idx)
  | [], [], _ => rfl
  | [], _ :: _, h => by simp [Within] at h
  | _ :: _, [], h => by simp [Within] at h
  | t :: ts, n :: shape, h => by
    obtain ⟨⟨h1, h2, h3, h4⟩, h'⟩ := h
    simp only [axes, axes_within h']
    rw [indices_resolved (by omega) h1 (by omega) (by omega) h3]
    rfl

theorem slice_within {β} {A : Nd β} {idx : List Tri} (h : Within idx A.shape) :
    A.slice idx = some { shape := lens idx, at_ := fun i => A.at_ (fromSlice (axOf idx) i) } := by
  simp [Nd.slice, axes_within h, axOf, lens, List.map_map, Function.comp_def]

theorem fromSlice_mem : ∀ {idx : List Tri} {shape : List Nat} {i : List Int}, Within idx shape → InShape i (lens idx) →
    Mem (fromSlice (axOf idx) i) idx
  | [], [], [], _, _ => trivial
  | [], [], _ :: _, _, h => by simp [lens, InShape] at h
  | [], _ :: _, _, h, _ => by simp [Within] at h
  | _ :: _, [], _, h, _ => by simp [Within] at h
  | _ :: _, _ :: _, [], _, h => by simp [lens, InShape] at h
  | t :: ts, n :: shape, x :: i, h, hi => by
    obtain ⟨⟨h1, h2, h3, h4⟩, h'⟩ := h
    obtain ⟨⟨hx, hx'⟩, hi'⟩ := hi
    refine ⟨⟨?_, ?_, x, rfl⟩, fromSlice_mem h' hi'⟩
    · have : 0 ≤ t.step * x := mul_nonneg (by omega) hx
      show t.start ≤ t.start + t.step * x
      omega
    · exact (lt_rangeLen (by omega) hx).mp hx'

theorem mem_inShape : ∀ {idx : List Tri} {shape : List Nat} {i : List Int}, Within idx shape → Mem i idx →
    InShape i shape
  | [], [], [], _, _ => trivial
  | [], [], _ :: _, _, h => by simp [Mem] at h
  | [], _ :: _, _, h, _ => by simp [Within] at h
  | _ :: _, [], _, h, _ => by simp [Within] at h
  | _ :: _, _ :: _, [], _, h => by simp [Mem] at h
  | t :: ts, n :: shape, x :: i, h, hi => by
    obtain ⟨⟨h1, h2, h3, h4⟩, h'⟩ := h
    obtain ⟨⟨hx, hx', -⟩, hi'⟩ := hi
    exact ⟨⟨by omega, by omega⟩, mem_inShape h' hi'⟩

theorem axis_selected {a b c x : Int} (hc : 0 < c) :
    (decide ((x - a) % c = 0) && decide (0 ≤ (x - a) / c) && decide ((x - a) / c < rangeLen a b c)) = true ↔
    (a ≤ x ∧ x < b ∧ ∃ k, x = a + c * k) := by
  simp only [Bool.and_eq_true, decide_eq_true_eq]
  constructor
  · rintro ⟨⟨h1, h2⟩, h3⟩
    have e : c * ((x - a) / c) = x - a := Int.mul_ediv_cancel' (Int.dvd_of_emod_eq_zero h1)
    have h4 := (lt_rangeLen (a := a) (b := b) hc h2).mp h3
    have : 0 ≤ c * ((x - a) / c) := mul_nonneg (by omega) h2
    exact ⟨by omega, by omega, (x - a) / c, by omega⟩
  · rintro ⟨h1, h2, k, rfl⟩
    have e : a + c * k - a = c * k := by ring
    rw [e, Int.mul_emod_right, Int.mul_ediv_cancel_left _ (by omega : c ≠ 0)]
    have hk : 0 ≤ k := by
      by_contra hk
      have : c * k ≤ c * (-1) := mul_le_mul_of_nonneg_left (by omega) (by omega)
      omega
    exact ⟨⟨rfl, hk⟩, (lt_rangeLen hc hk).mpr h2⟩

theorem isSelected_iff : ∀ {idx : List Tri} {shape : List Nat} {i : List Int}, Within idx shape →
    (isSelected (axOf idx) i = true ↔ Mem i idx)
  | [], [], [], _ => by simp [axOf, isSelected, Mem]
  | [], [], _ :: _, _ => by simp [axOf, isSelected, Mem]
  | [], _ :: _, _, h => by simp [Within] at h
  | _ :: _, [], _, h => by simp [Within] at h
  | _ :: _, _ :: _, [], _ => by simp [axOf, isSelected, Mem]
  | t :: ts, n :: shape, x :: i, h => by
    obtain ⟨⟨h1, h2, h3, h4⟩, h'⟩ := h
    have ih := isSelected_iff (i := i) h'
    have ha := axis_selected (a := t.start) (b := t.stop) (c := t.step) (x := x) (by omega)
    simp only [axOf] at ih
    simp only [axOf, List.map_cons, isSelected, Mem]
    rw [Bool.and_eq_true, ha, ih]

theorem toSlice_spec : ∀ {idx : List Tri} {shape : List Nat} {i : List Int}, Within idx shape → Mem i idx →
    InShape (toSlice (axOf idx) i) (lens idx) ∧ fromSlice (axOf idx) (toSlice (axOf idx) i) = i
  | [], [], [], _, _ => ⟨trivial, rfl⟩
  | [], [], _ :: _, _, h => by simp [Mem] at h
  | [], _ :: _, _, h, _ => by simp [Within] at h
  | _ :: _, [], _, h, _ => by simp [Within] at h
  | _ :: _, _ :: _, [], _, h => by simp [Mem] at h
  | t :: ts, n :: shape, x :: i, h, hi => by
    obtain ⟨⟨h1, h2, h3, h4⟩, h'⟩ := h
    obtain ⟨hx, hi'⟩ := hi
    have ih := toSlice_spec h' hi'
    have ha := (axis_selected (a := t.start) (b := t.stop) (c := t.step) (x := x) (by omega)).mpr hx
    simp only [Bool.and_eq_true, decide_eq_true_eq] at ha
    have e : t.step * ((x - t.start) / t.step) = x - t.start := Int.mul_ediv_cancel' (Int.dvd_of_emod_eq_zero ha.1.1)
    refine ⟨⟨⟨ha.1.2, ha.2⟩, ih.1⟩, ?_⟩
    show (t.start + t.step * ((x - t.start) / t.step)) :: _ = x :: i
    rw [e]
    congr 1
    · omega
    · exact ih.2

/-- A piece, pointwise. -/
theorem piece_iff {β} {A : Nd β} {f : Frag β} : Piece A f ↔ Within f.index A.shape ∧
    ∃ v, f.value = some v ∧ v.shape = lens f.index ∧
      ∀ i, InShape i (lens f.index) → v.at_ i = A.at_ (fromSlice (axOf f.index) i) := by
  constructor
  · rintro ⟨h, v, w, hv, hw, hs⟩
    rw [slice_within h] at hw
    cases hw
    refine ⟨h, v, hv, hs.1, fun i hi => hs.2 i ?_⟩
    rw [hs.1]; exact hi
  · rintro ⟨h, v, hv, hs, ha⟩
    refine ⟨h, v, _, hv, slice_within h, hs, ?_⟩
    intro i hi
    rw [hs] at hi
    exact ha i hi

theorem piece_at {β} {A : Nd β} {f : Frag β} (h : Piece A f) {v} (hv : f.value = some v) {i} (hi : Mem i f.index) :
    v.at_ (toSlice (axOf f.index) i) = A.at_ i := by
  obtain ⟨hw, v', hv', hs, ha⟩ := piece_iff.mp h
  rw [hv] at hv'; cases hv'
  obtain ⟨h1, h2⟩ := toSlice_spec hw hi
  rw [ha _ h1, h2]

theorem assign_piece {β} {A r : Nd β} {f : Frag β} (hr : r.shape = A.shape) (h : Piece A f) {v} (hv : f.value = some v) :
    ∃ r', r.assign f.index v = some r' ∧ r'.shape = A.shape ∧
      ∀ i, (Mem i f.index ∨ r.at_ i = A.at_ i) → r'.at_ i = A.at_ i := by
  obtain ⟨hw, v', hv', hs, ha⟩ := piece_iff.mp h
  rw [hv] at hv'; cases hv'
  have hax : axes f.index r.shape = some (axOf f.index) := by rw [hr]; exact axes_within hw
  have hl : v.shape = (axOf f.index).map (·.2.2) := by
    rw [hs]; simp [axOf, lens, List.map_map, Function.comp_def]
  refine ⟨{ r with at_ := fun i => if isSelected (axOf f.index) i then v.at_ (toSlice (axOf f.index) i) else r.at_ i },
    ?_, ?_, ?_⟩
  · simp only [Nd.assign, hax, Option.bind_eq_bind, Option.bind_some]
    rw [if_pos hl]
  · exact hr
  · intro i hi
    show (if isSelected (axOf f.index) i then _ else _) = _
    by_cases hm : Mem i f.index
    · rw [if_pos ((isSelected_iff hw).mpr hm)]
      exact piece_at h hv hm
    · rw [if_neg (fun h' => hm ((isSelected_iff hw).mp h'))]
      rcases hi with hi | hi
      · exact absurd hi hm
      · exact hi

theorem assignAll_spec {β} {A : Nd β} : ∀ (l : List (Frag β)) (r : Nd β), r.shape = A.shape → (∀ f ∈ l, Piece A f) →
    ∃ r', assignAll r l = some r' ∧ r'.shape = A.shape ∧
      ∀ i, ((∃ f ∈ l, Mem i f.index) ∨ r.at_ i = A.at_ i) → r'.at_ i = A.at_ i
  | [], r, hr, _ => ⟨r, rfl, hr, fun i h => by simpa using h⟩
  | f :: l, r, hr, hp => by
    have hpf := hp f (by simp)
    obtain ⟨-, v, -, hv, -⟩ := hpf
    obtain ⟨r1, e1, hs1, ha1⟩ := assign_piece hr (hp f (by simp)) hv
    obtain ⟨r2, e2, hs2, ha2⟩ := assignAll_spec l r1 hs1 (fun g hg => hp g (by simp [hg]))
    refine ⟨r2, ?_, hs2, ?_⟩
    · simp [assignAll, hv, e1, e2]
    · rintro i (⟨g, hg, hm⟩ | h)
      · rcases List.mem_cons.mp hg with rfl | hg
        · exact ha2 i (.inr (ha1 i (.inl hm)))
        · exact ha2 i (.inl ⟨g, hg, hm⟩)
      · exact ha2 i (.inr (ha1 i (.inr h)))

theorem mem_positions : ∀ (shape : List Nat) (i : List Int), i ∈ positions shape ↔ InShape i shape
  | [], [] => by simp [positions, InShape]
  | [], _ :: _ => by simp [positions, InShape]
  | n :: shape, [] => by simp [positions, InShape]
  | n :: shape, x :: i => by
    have ih := mem_positions shape i
    simp only [positions, List.mem_flatMap, List.mem_range, List.mem_map, InShape, ← ih]
    constructor
    · rintro ⟨a, ha, j, hj, e⟩
      cases e
      exact ⟨⟨by simp, by simpa using ha⟩, hj⟩
    · rintro ⟨⟨h1, h2⟩, h3⟩
      exact ⟨x.toNat, by omega, i, h3, by simp [Int.toNat_of_nonneg h1]⟩

theorem mapM_some {α γ : Type} {g : α → Option γ} {h : α → γ} : ∀ (l : List α), (∀ a ∈ l, g a = some (h a)) →
    l.mapM g = some (l.map h)
  | [], _ => rfl
  | a :: l, hh => by
    rw [List.mapM_cons, hh a (by simp), mapM_some l (fun b hb => hh b (by simp [hb]))]
    rfl

theorem isFull_iff {β} {shape : List Nat} {l : List (Frag β)} (hw : ∀ f ∈ l, Within f.index shape) :
    ∃ b, Frags.isFull ⟨shape, l⟩ = some b ∧ (b = true ↔ Covered shape l) := by
  have hm : l.mapM (fun f => axes f.index shape) = some (l.map fun f => axOf f.index) :=
    mapM_some l (fun f hf => axes_within (hw f hf))
  refine ⟨(positions shape).all fun i => (l.map fun f => axOf f.index).any fun ax => isSelected ax i, ?_, ?_⟩
  · simp only [Frags.isFull, hm, Option.bind_eq_bind, Option.bind_some]; rfl
  · simp only [List.all_eq_true, mem_positions, List.any_eq_true, List.mem_map, Covered]
    constructor
    · intro h i hi
      obtain ⟨_, ⟨f, hf, rfl⟩, hs⟩ := h i hi
      exact ⟨f, hf, (isSelected_iff (hw f hf)).mp hs⟩
    · intro h i hi
      obtain ⟨f, hf, hm⟩ := h i hi
      exact ⟨_, ⟨f, hf, rfl⟩, (isSelected_iff (hw f hf)).mpr hm⟩

theorem degenerate_no_mem {β} {f : Frag β} (h : f.degenerate = true) (i : List Int) : ¬ Mem i f.index := by
  unfold Frag.degenerate at h
  generalize f.index = idx at h ⊢
  induction idx generalizing i with
  | nil => simp at h
  | cons t ts ih =>
    cases i with
    | nil => simp [Mem]
    | cons x i =>
      rintro ⟨⟨h1, h2, -⟩, hm⟩
      rw [List.any_cons, Bool.or_eq_true] at h
      rcases h with h | h
      · have : t.stop = t.start := by simpa using h
        omega
      · exact ih i h hm

theorem sliceLen_eq {a b c : Int} (hc : 0 < c) (h : a ≤ b) : sliceLen a b c = (rangeLen a b c : Nat) := by
  rw [C39_slice_shape a b c hc h]; simp [pyRange]

theorem shape_lens {β} {f : Frag β} {shape : List Nat} (h : Within f.index shape) :
    f.shape = (lens f.index).map Int.ofNat := by
  unfold Frag.shape lens
  generalize f.index = idx at h ⊢
  induction idx generalizing shape with
  | nil => rfl
  | cons t ts ih =>
    cases shape with
    | nil => simp [Within] at h
    | cons n shape =>
      obtain ⟨⟨h1, h2, h3, h4⟩, h'⟩ := h
      simp only [List.map_cons]
      rw [sliceLen_eq (by omega) h2, ih h']
      rfl

theorem map_ofNat_inj : ∀ {a b : List Nat}, a.map Int.ofNat = b.map Int.ofNat → a = b
  | [], [], _ => rfl
  | [], _ :: _, h => by simp at h
  | _ :: _, [], h => by simp at h
  | x :: a, y :: b, h => by
    simp only [List.map_cons, List.cons.injEq] at h
    rw [Int.ofNat.inj h.1, map_ofNat_inj h.2]

/-- A non-degenerate index of the shape of the array selects everything, in place. -/
theorem whole_fromSlice : ∀ {idx : List Tri} {shape : List Nat} {i : List Int}, Within idx shape → lens idx = shape →
    (idx.any fun t => t.stop == t.start) = false → InShape i shape → fromSlice (axOf idx) i = i
  | [], [], [], _, _, _, _ => rfl
  | [], [], _ :: _, _, _, _, h => by simp [InShape] at h
  | [], _ :: _, _, h, _, _, _ => by simp [Within] at h
  | _ :: _, [], _, h, _, _, _ => by simp [Within] at h
  | _ :: _, _ :: _, [], _, _, _, h => by simp [InShape] at h
  | t :: ts, n :: shape, x :: i, h, hl, hd, hi => by
    obtain ⟨⟨h1, h2, h3, h4⟩, h'⟩ := h
    obtain ⟨⟨hx, hx'⟩, hi'⟩ := hi
    simp only [lens, List.map_cons, List.cons.injEq] at hl
    simp only [List.any_cons, Bool.or_eq_false_iff] at hd
    have ih := whole_fromSlice h' hl.2 hd.2 hi'
    show (t.start + t.step * x) :: fromSlice (axOf ts) i = x :: i
    rw [ih]
    congr 1
    have hlast : t.start + t.step * (n - 1 : Int) < t.stop := by
      refine (lt_rangeLen (b := t.stop) (by omega) (by omega)).mp ?_
      rw [hl.1]; omega
    rcases lt_or_ge 0 x with h0 | h0
    · have hstep : t.step = 1 := by
        by_contra hne
        have : 2 * (n - 1 : Int) ≤ t.step * (n - 1 : Int) := mul_le_mul_of_nonneg_right (by omega) (by omega)
        omega
      rw [hstep] at hlast ⊢
      omega
    · have hx0 : x = 0 := by omega
      subst hx0
      have : 0 ≤ (t.step - 1) * (n - 1 : Int) := mul_nonneg (by omega) (by omega)
      have e : (t.step - 1) * (n - 1 : Int) = t.step * (n - 1 : Int) - (n - 1) := by ring
      omega

/-! ### C35 -/

/-- C35: if every fragment is a piece of the array `A` (pieces may overlap, have steps, be empty) and together
they cover it, then converting the fragments to an array succeeds and gives `A`. -/
theorem C35_assemble {β} (A : Nd β) (l : List (Frag β)) (junk : List Int → β) (hp : ∀ f ∈ l, Piece A f)
    (hc : Covered A.shape l) : ∃ r, Frags.toArray ⟨A.shape, l⟩ none junk = some r ∧ Same r A := by
  have hv : l.any (fun f => f.value.isNone) = false := by
    simp only [List.any_eq_false]
    intro f hf
    obtain ⟨-, v, -, hv, -⟩ := hp f hf
    simp [hv]
  unfold Frags.toArray
  simp only [hv, Bool.false_eq_true, if_false]
  split
  · next f hf =>
    have hmem := List.mem_of_find?_eq_some hf
    have hpred := List.find?_some hf
    simp only [List.mem_filter, Bool.not_eq_true'] at hmem
    have hpf := hp f hmem.1
    obtain ⟨hw, v, hv, hs, ha⟩ := piece_iff.mp hpf
    have hls : lens f.index = A.shape := by
      simp only [beq_iff_eq] at hpred
      rw [shape_lens hw] at hpred
      exact map_ofNat_inj hpred
    refine ⟨v, hv, by rw [hs, hls], ?_⟩
    intro i hi
    rw [hs] at hi
    rw [ha i hi]
    rw [hls] at hi
    rw [whole_fromSlice hw hls hmem.2 hi]
  · obtain ⟨b, hb, hb'⟩ := isFull_iff (shape := A.shape) (l := l) (fun f hf => (hp f hf).1)
    have : b = true := hb'.mpr hc
    subst this
    simp only [hb, reduceCtorEq, if_false]
    obtain ⟨r, e, hs, ha⟩ := assignAll_spec (A := A) (l.filter fun f => !f.degenerate)
      { shape := A.shape, at_ := junk } rfl (fun f hf => hp f (List.mem_filter.mp hf).1)
    refine ⟨r, e, hs, ?_⟩
    intro i hi
    rw [hs] at hi
    obtain ⟨f, hf, hm⟩ := hc i hi
    refine ha i (.inl ⟨f, List.mem_filter.mpr ⟨hf, ?_⟩, hm⟩)
    cases hd : f.degenerate with
    | false => rfl
    | true => exact absurd hm (degenerate_no_mem hd i)

/-- C35: incomplete coverage is rejected: if the fragments are pieces of `A` and some position of `A` belongs
to none of them, converting raises an exception. -/
theorem C35_incomplete_rejected {β} (A : Nd β) (l : List (Frag β)) (copy : Option Bool) (junk : List Int → β)
    (hp : ∀ f ∈ l, Piece A f) (hc : ¬ Covered A.shape l) : Frags.toArray ⟨A.shape, l⟩ copy junk = none := by
  unfold Frags.toArray
  split
  · rfl
  · simp only
    split
    · next f hf =>
      exfalso
      apply hc
      have hmem := List.mem_of_find?_eq_some hf
      have hpred := List.find?_some hf
      simp only [List.mem_filter, Bool.not_eq_true'] at hmem
      obtain ⟨hw, -⟩ := hp f hmem.1
      have hls : lens f.index = A.shape := by
        simp only [beq_iff_eq] at hpred
        rw [shape_lens hw] at hpred
        exact map_ofNat_inj hpred
      intro i hi
      refine ⟨f, hmem.1, ?_⟩
      have := fromSlice_mem hw (hls ▸ hi)
      rwa [whole_fromSlice hw hls hmem.2 hi] at this
    · split
      · rfl
      · obtain ⟨b, hb, hb'⟩ := isFull_iff (shape := A.shape) (l := l) (fun f hf => (hp f hf).1)
        rw [hb]
        cases b with
        | false => rfl
        | true => exact absurd (hb'.mp rfl) hc

/-- C35: whenever converting pieces of `A` succeeds, also when no copy is allowed, the result is `A`. -/
theorem C35_sound {β} (A : Nd β) (l : List (Frag β)) (copy : Option Bool) (junk : List Int → β)
    (hp : ∀ f ∈ l, Piece A f) (r : Nd β) (h : Frags.toArray ⟨A.shape, l⟩ copy junk = some r) : Same r A := by
  have hc : Covered A.shape l := by
    by_contra hc
    rw [C35_incomplete_rejected A l copy junk hp hc] at h
    cases h
  obtain ⟨r', e, hs⟩ := C35_assemble A l junk hp hc
  suffices Frags.toArray ⟨A.shape, l⟩ none junk = some r by rw [this] at e; cases e; exact hs
  unfold Frags.toArray at h ⊢
  split
  · next h0 => simp [h0] at h
  · next h0 =>
    rw [if_neg h0] at h
    simp only at h ⊢
    split
    · next hf => simpa [hf] using h
    · next hf =>
      simp only [hf] at h
      split at h
      · cases h
      · simpa using h

/-- C35: abstract fragments are rejected. -/
theorem C35_abstract_rejected {β} (shape : List Nat) (l : List (Frag β)) (copy : Option Bool) (junk : List Int → β)
    (f : Frag β) (hf : f ∈ l) (hv : f.value = none) : Frags.toArray ⟨shape, l⟩ copy junk = none := by
  unfold Frags.toArray
  rw [if_pos]
  rw [List.any_eq_true]
  exact ⟨f, hf, by simp [hv]⟩

/-- A fragment that is not within the array is not noticed when its own shape is that of the array: its value
is returned as the array although it covers no position before `k`. -/
theorem C35_misplaced_fragment_accepted_fails {β} (v : Nd β) (n k : Nat) (hn : 0 < n)
    (junk : List Int → β) :
    Frags.toArray ⟨[n], [⟨[⟨k, k + n, 1⟩], some v⟩]⟩ none junk = some v ∧
    ∀ x : Int, x < k → ¬ Mem [x] [⟨k, k + n, 1⟩] := by
  constructor
  · have hd : Frag.degenerate (β := β) ⟨[⟨k, k + n, 1⟩], some v⟩ = false := by
      simp [Frag.degenerate]; omega
    have hs : Frag.shape (β := β) ⟨[⟨k, k + n, 1⟩], some v⟩ = [(n : Int)] := by
      simp [Frag.shape, sliceLen]
    simp [Frags.toArray, hd, hs]
  · intro x hx h
    have := h.1.1
    simp only at this
    omega

/-! ### C36 -/

/-- All steps are 1. -/
def Unit1 (idx : List Tri) : Prop := ∀ t ∈ idx, t.step = 1

theorem rangeLen_one {a b : Int} (h : a ≤ b) : (rangeLen a b 1 : Int) = b - a := by
  unfold rangeLen
  rw [if_pos (by decide)]
  split
  · simp; omega
  · omega

/-- Membership in a box (all steps 1), per axis. -/
theorem mem_cons_unit {x : Int} {i : List Int} {t : Tri} {ts : List Tri} (h : t.step = 1) :
    Mem (x :: i) (t :: ts) ↔ (t.start ≤ x ∧ x < t.stop) ∧ Mem i ts := by
  simp only [Mem, h]
  constructor
  · rintro ⟨⟨h1, h2, -⟩, h3⟩; exact ⟨⟨h1, h2⟩, h3⟩
  · rintro ⟨⟨h1, h2⟩, h3⟩; exact ⟨⟨h1, h2, x - t.start, by omega⟩, h3⟩

theorem unit_intersection {idx own : List Tri} (h : Unit1 idx) : Unit1 (intersection idx own) := by
  induction idx generalizing own with
  | nil => intro t ht; simp [intersection] at ht
  | cons a idx ih =>
    cases own with
    | nil => intro t ht; simp [intersection] at ht
    | cons b own =>
      intro t ht
      simp only [intersection, List.zipWith_cons_cons, List.mem_cons] at ht
      rcases ht with rfl | ht
      · exact h a (by simp)
      · exact ih (fun t ht => h t (by simp [ht])) t ht

theorem mem_intersection {idx own : List Tri} (h1 : Unit1 idx) (h2 : Unit1 own) (hl : idx.length = own.length)
    (i : List Int) : Mem i (intersection idx own) ↔ Mem i own ∧ Mem i idx := by
  induction idx generalizing own i with
  | nil =>
    cases own with
    | nil => simp [intersection]
    | cons b own => simp at hl
  | cons a idx ih =>
    cases own with
    | nil => simp at hl
    | cons b own =>
      cases i with
      | nil => simp [Mem, intersection]
      | cons x i =>
        have ih := ih (own := own) (fun t ht => h1 t (by simp [ht])) (fun t ht => h2 t (by simp [ht]))
          (by simpa using hl) i
        have ha := h1 a (by simp)
        have hb := h2 b (by simp)
        have e : intersection (a :: idx) (b :: own) = ⟨max a.start b.start, min a.stop b.stop, a.step⟩ :: intersection idx own := rfl
        rw [e, mem_cons_unit (by exact ha), mem_cons_unit ha, mem_cons_unit hb, ih]
        simp only
        constructor
        · rintro ⟨⟨h1, h2⟩, h3, h4⟩
          exact ⟨⟨⟨by omega, by omega⟩, h3⟩, ⟨by omega, by omega⟩, h4⟩
        · rintro ⟨⟨⟨h1, h2⟩, h3⟩, ⟨h4, h5⟩, h6⟩
          exact ⟨⟨by omega, by omega⟩, h3, h6⟩

/-- A box all of whose sides are positive has a position; if one is not, it has none. -/
theorem box_nonempty (l : List Tri) (h : Unit1 l) : (l.all fun t => decide (t.start < t.stop)) = true ↔ ∃ i, Mem i l := by
  induction l with
  | nil => exact ⟨fun _ => ⟨[], trivial⟩, fun _ => rfl⟩
  | cons t l ih =>
    have ht := h t (by simp)
    have ih := ih (fun t ht => h t (by simp [ht]))
    rw [List.all_cons, Bool.and_eq_true, ih, decide_eq_true_eq]
    constructor
    · rintro ⟨h1, i, hi⟩
      exact ⟨t.start :: i, (mem_cons_unit ht).mpr ⟨⟨by omega, h1⟩, hi⟩⟩
    · rintro ⟨i, hi⟩
      cases i with
      | nil => simp [Mem] at hi
      | cons x i =>
        have := (mem_cons_unit ht).mp hi
        exact ⟨by omega, i, this.2⟩

theorem not_unit_any {l : List Tri} (h : Unit1 l) : (l.any fun t => t.step != 1) = false := by
  rw [List.any_eq_false]
  intro t ht
  simp [h t ht]

/-- Translation of positions. -/
def shift (i d : List Int) : List Int := List.zipWith (· + ·) i d

/-- C36: `offset_by` translates: position `i` belongs to the fragment if and only if `i + delta` belongs to
the translated one; the value is kept. -/
theorem C36_offset_translates {β} (f : Frag β) (delta i : List Int) (h1 : delta.length = f.index.length)
    (h2 : i.length = f.index.length) :
    (Mem (shift i delta) (f.offsetBy delta).index ↔ Mem i f.index) ∧ (f.offsetBy delta).value = f.value := by
  refine ⟨?_, rfl⟩
  show Mem (shift i delta) (offset f.index delta) ↔ _
  generalize f.index = idx at h1 h2 ⊢
  induction idx generalizing delta i with
  | nil =>
    cases delta <;> cases i <;> simp_all [shift, offset, Mem]
  | cons t ts ih =>
    cases delta with
    | nil => simp at h1
    | cons d delta =>
      cases i with
      | nil => simp at h2
      | cons x i =>
        have ih := ih delta i (by simpa using h1) (by simpa using h2)
        have e1 : shift (x :: i) (d :: delta) = (x + d) :: shift i delta := rfl
        have e2 : offset (t :: ts) (d :: delta) = ⟨t.start + d, t.stop + d, t.step⟩ :: offset ts delta := rfl
        rw [e1, e2]
        simp only [Mem, ih]
        constructor
        · rintro ⟨⟨h3, h4, k, h5⟩, h6⟩
          exact ⟨⟨by omega, by omega, k, by omega⟩, h6⟩
        · rintro ⟨⟨h3, h4, k, h5⟩, h6⟩
          exact ⟨⟨by omega, by omega, k, by omega⟩, h6⟩

/-- C36: intersecting an abstract fragment with an index (all steps 1) gives exactly the common positions,
and `None` exactly when there are none. -/
theorem C36_intersect_positions {β} (f : Frag β) (idx : List Tri) (h1 : Unit1 f.index) (h2 : Unit1 idx)
    (hl : idx.length = f.index.length) (hv : f.value = none) :
    (∃ g, f.intersect idx = some (some g) ∧ (∃ i, Mem i f.index ∧ Mem i idx) ∧
      ∀ i, Mem i g.index ↔ Mem i f.index ∧ Mem i idx) ∨
    (f.intersect idx = some none ∧ ∀ i, ¬ (Mem i f.index ∧ Mem i idx)) := by
  unfold Frag.intersect
  rw [not_unit_any h1, not_unit_any h2]
  simp only [Bool.or_self, Bool.false_eq_true, if_false]
  have hm := mem_intersection h2 h1 hl
  have hu := unit_intersection (own := f.index) h2
  by_cases hb : ((intersection idx f.index).all fun t => decide (t.start < t.stop)) = true
  · left
    rw [if_pos hb]
    obtain ⟨i, hi⟩ := (box_nonempty _ hu).mp hb
    exact ⟨_, by simp [Frag.sliceOfValue, hv]; rfl, ⟨i, (hm i).mp hi⟩, hm⟩
  · right
    rw [if_neg hb]
    refine ⟨rfl, ?_⟩
    intro i hi
    exact hb ((box_nonempty _ hu).mpr ⟨i, (hm i).mpr hi⟩)

theorem lens_unit {t : Tri} {ts : List Tri} (h : t.step = 1) : lens (t :: ts) = rangeLen t.start t.stop 1 :: lens ts := by
  simp [lens, h]

/-- The part of a box within another one, seen from the second: it is within the value of the fragment. -/
theorem part_within : ∀ {out own : List Tri} {shape : List Nat}, Within own shape → Unit1 own → Unit1 out →
    out.length = own.length → (∀ i, Mem i out → Mem i own) → (∃ i, Mem i out) →
    Within (offset out (own.map fun t => -t.start)) (lens own) ∧ Within out shape ∧
    lens (offset out (own.map fun t => -t.start)) = lens out ∧
    ∀ i, InShape i (lens out) →
      fromSlice (axOf own) (fromSlice (axOf (offset out (own.map fun t => -t.start))) i) = fromSlice (axOf out) i
  | [], [], [], _, _, _, _, _, _ => ⟨trivial, trivial, rfl, fun i hi => by cases i <;> rfl⟩
  | [], [], _ :: _, h, _, _, _, _, _ => by simp [Within] at h
  | [], _ :: _, _, _, _, _, h, _, _ => by simp at h
  | _ :: _, [], _, _, _, _, h, _, _ => by simp at h
  | _ :: _, _ :: _, [], h, _, _, _, _, _ => by simp [Within] at h
  | o :: out, t :: own, n :: shape, hw, hu, hu', hl, hsub, hne => by
    obtain ⟨⟨h1, h2, h3, h4⟩, hw'⟩ := hw
    have ht := hu t (by simp)
    have ho := hu' o (by simp)
    obtain ⟨i0, hi0⟩ := hne
    cases i0 with
    | nil => simp [Mem] at hi0
    | cons x0 i0 =>
      have hi0' := (mem_cons_unit ho).mp hi0
      have hax : t.start ≤ o.start ∧ o.stop ≤ t.stop ∧ o.start < o.stop := by
        refine ⟨?_, ?_, by omega⟩
        · have := (mem_cons_unit ht).mp (hsub (o.start :: i0) ((mem_cons_unit ho).mpr ⟨⟨by omega, by omega⟩, hi0'.2⟩))
          omega
        · have := (mem_cons_unit ht).mp (hsub ((o.stop - 1) :: i0) ((mem_cons_unit ho).mpr ⟨⟨by omega, by omega⟩, hi0'.2⟩))
          omega
      have ih := part_within (out := out) hw' (fun t ht => hu t (by simp [ht])) (fun t ht => hu' t (by simp [ht]))
        (by simpa using hl) (fun i hi => ((mem_cons_unit ht).mp (hsub (x0 :: i) ((mem_cons_unit ho).mpr ⟨hi0'.1, hi⟩))).2)
        ⟨i0, hi0'.2⟩
      obtain ⟨ih1, ih2, ih3, ih4⟩ := ih
      have e : offset (o :: out) ((t :: own).map fun t => -t.start)
          = ⟨o.start + -t.start, o.stop + -t.start, o.step⟩ :: offset out (own.map fun t => -t.start) := rfl
      rw [e]
      have hlen : rangeLen (o.start + -t.start) (o.stop + -t.start) o.step = rangeLen o.start o.stop o.step := by
        unfold rangeLen
        have e1 : o.stop + -t.start - (o.start + -t.start) - 1 = o.stop - o.start - 1 := by omega
        rw [e1, ho, if_pos one_pos, if_pos one_pos, if_pos (by omega), if_pos (by omega)]
      refine ⟨⟨⟨?_, ?_, ?_, ?_⟩, ih1⟩, ⟨⟨by omega, by omega, by omega, by omega⟩, ih2⟩, ?_, ?_⟩
      · show 0 ≤ o.start + -t.start; omega
      · show o.start + -t.start ≤ o.stop + -t.start; omega
      · show o.stop + -t.start ≤ (rangeLen t.start t.stop t.step : Int)
        rw [ht, rangeLen_one h2]; omega
      · show 1 ≤ o.step; omega
      · simp only [lens, List.map_cons, hlen]
        congr 1
      · intro i hi
        cases i with
        | nil => simp [lens, InShape] at hi
        | cons x i =>
          simp only [axOf, List.map_cons, fromSlice]
          have := ih4 i hi.2
          simp only [axOf] at this
          rw [this, ht, ho]
          congr 1
          ring

theorem sliceOfValue_part {β} {A : Nd β} {f : Frag β} (hp : Piece A f) {out : List Tri} (hu : Unit1 f.index)
    (hu' : Unit1 out) (hl : out.length = f.index.length) (hsub : ∀ i, Mem i out → Mem i f.index)
    (hne : ∃ i, Mem i out) : ∃ w, f.sliceOfValue out = some (some w) ∧ Piece A ⟨out, some w⟩ := by
  obtain ⟨hw, v, hv, hs, ha⟩ := piece_iff.mp hp
  obtain ⟨h1, h2, h3, h4⟩ := part_within hw hu hu' hl hsub hne
  have hslice := slice_within (A := v) (by rw [hs]; exact h1)
  have hb : ((offset out (f.index.map fun t => -t.start)).any (fun t => decide (t.start < 0)) ||
      (List.zipWith (fun (t : Tri) (n : Nat) => decide (t.stop > (n : Int)))
        (offset out (f.index.map fun t => -t.start)) v.shape).any id) = false := by
    rw [hs]
    generalize offset out (f.index.map fun t => -t.start) = g at h1
    generalize lens f.index = sh at h1
    clear hslice h3 h4
    induction g generalizing sh with
    | nil => simp
    | cons t g ih =>
      cases sh with
      | nil => simp [Within] at h1
      | cons n sh =>
        obtain ⟨⟨h1, h2, h3, h4⟩, h'⟩ := h1
        have ih := ih sh h'
        simp only [Bool.or_eq_false_iff] at ih
        simp only [List.any_cons, List.zipWith_cons_cons, id_eq, ih.1, ih.2, Bool.or_false, Bool.or_eq_false_iff,
          decide_eq_false_iff_not]
        exact ⟨by omega, by omega⟩
  refine ⟨{ shape := lens (offset out (f.index.map fun t => -t.start)),
            at_ := fun i => v.at_ (fromSlice (axOf (offset out (f.index.map fun t => -t.start))) i) }, ?_, ?_⟩
  · unfold Frag.sliceOfValue
    rw [hv]
    simp only [hb, Bool.false_eq_true, if_false, hslice, Option.map_some]
  · refine piece_iff.mpr ⟨h2, _, rfl, h3, ?_⟩
    intro i hi
    show v.at_ (fromSlice _ i) = _
    rw [ha _ ?_, h4 i hi]
    exact mem_inShape h1 (fromSlice_mem h1 (h3 ▸ hi))

/-- C36: intersecting a piece of `A` with an index (all steps 1) gives `None` if they have no common
position, and otherwise a piece of `A` whose positions are exactly the common ones. -/
theorem C36_intersect {β} (A : Nd β) (f : Frag β) (idx : List Tri) (hp : Piece A f) (h1 : Unit1 f.index)
    (h2 : Unit1 idx) (hl : idx.length = f.index.length) :
    (∃ g, f.intersect idx = some (some g) ∧ Piece A g ∧ (∃ i, Mem i g.index) ∧
      ∀ i, Mem i g.index ↔ Mem i f.index ∧ Mem i idx) ∨
    (f.intersect idx = some none ∧ ∀ i, ¬ (Mem i f.index ∧ Mem i idx)) := by
  unfold Frag.intersect
  rw [not_unit_any h1, not_unit_any h2]
  simp only [Bool.or_self, Bool.false_eq_true, if_false]
  have hm := mem_intersection h2 h1 hl
  have hu := unit_intersection (own := f.index) h2
  by_cases hb : ((intersection idx f.index).all fun t => decide (t.start < t.stop)) = true
  · left
    rw [if_pos hb]
    have hne := (box_nonempty _ hu).mp hb
    obtain ⟨w, hw, hpw⟩ := sliceOfValue_part hp h1 hu (by simp [intersection]; omega)
      (fun i hi => ((hm i).mp hi).1) hne
    exact ⟨⟨_, some w⟩, by simp [hw], hpw, hne, hm⟩
  · right
    rw [if_neg hb]
    refine ⟨rfl, ?_⟩
    intro i hi
    exact hb ((box_nonempty _ hu).mpr ⟨i, (hm i).mpr hi⟩)

/-- C36: steps other than 1 are refused. -/
theorem C36_steps_refused {β} (f : Frag β) (idx : List Tri) (h : ¬ Unit1 f.index ∨ ¬ Unit1 idx) :
    f.intersect idx = none ∧ f.slice idx = none := by
  have : f.intersect idx = none := by
    unfold Frag.intersect
    rw [if_pos]
    rw [Bool.or_eq_true]
    rcases h with h | h
    · left
      simp only [Unit1, not_forall] at h
      obtain ⟨t, ht, hne⟩ := h
      exact List.any_eq_true.mpr ⟨t, ht, by simpa using hne⟩
    · right
      simp only [Unit1, not_forall] at h
      obtain ⟨t, ht, hne⟩ := h
      exact List.any_eq_true.mpr ⟨t, ht, by simpa using hne⟩
  exact ⟨this, by simp [Frag.slice, this]⟩

/-- An index that `Fragments.slice` accepts for a shape: all steps 1, starting within the shape (and not
after its own end); it may end beyond the shape. -/
def Sliceable : List Tri → List Nat → Prop
  | [], [] => True
  | t :: ts, n :: shape => (0 ≤ t.start ∧ t.start ≤ t.stop ∧ t.start ≤ n ∧ t.step = 1) ∧ Sliceable ts shape
  | _, _ => False

def clip (idx : List Tri) (shape : List Nat) : List Tri :=
  List.zipWith (fun t (n : Nat) => ⟨t.start, min n t.stop, t.step⟩) idx shape

theorem sliceable_facts : ∀ {idx : List Tri} {shape : List Nat}, Sliceable idx shape →
    axes idx shape = axes (clip idx shape) shape ∧ Within (clip idx shape) shape ∧ Unit1 idx ∧
    idx.length = shape.length ∧
    (List.zipWith (fun (n : Nat) t => min (n : Int) t.stop - t.start) shape idx).any (fun d => decide (d < 0)) = false ∧
    (List.zipWith (fun (n : Nat) t => min (n : Int) t.stop - t.start) shape idx).map Int.toNat = lens (clip idx shape)
  | [], [], _ => ⟨rfl, trivial, by simp [Unit1], rfl, rfl, rfl⟩
  | [], _ :: _, h => by simp [Sliceable] at h
  | _ :: _, [], h => by simp [Sliceable] at h
  | t :: ts, n :: shape, h => by
    obtain ⟨⟨h1, h2, h3, h4⟩, h'⟩ := h
    obtain ⟨i1, i2, i3, i4, i5, i6⟩ := sliceable_facts h'
    have e : clip (t :: ts) (n :: shape) = ⟨t.start, min n t.stop, t.step⟩ :: clip ts shape := rfl
    refine ⟨?_, ?_, ?_, ?_, ?_, ?_⟩
    · rw [e]
      simp only [axes, i1]
      rw [indices_mk_pos (by omega), indices_mk_pos (by omega)]
      have : adjust n 0 n (min (n : Int) t.stop) = adjust n 0 n t.stop := by
        unfold adjust; repeat' split
        all_goals omega
      rw [this]
    · rw [e]
      exact ⟨⟨h1, by show t.start ≤ min (n : Int) t.stop; omega, by show min (n : Int) t.stop ≤ n; omega, by show 1 ≤ t.step; omega⟩, i2⟩
    · intro x hx
      rcases List.mem_cons.mp hx with rfl | hx
      · exact h4
      · exact i3 x hx
    · simp [i4]
    · simp only [List.zipWith_cons_cons, List.any_cons, i5, Bool.or_false, decide_eq_false_iff_not]
      omega
    · rw [e]
      simp only [List.zipWith_cons_cons, List.map_cons, i6, lens]
      congr 1
      have := rangeLen_one (a := t.start) (b := min n t.stop) (by omega)
      rw [h4]
      omega

/-- The part of the array an index selects, seen from the index. -/
theorem translate_within : ∀ {out idx : List Tri} {shape : List Nat}, Sliceable idx shape → Within out shape →
    Unit1 out → (∀ i, Mem i out → Mem i idx) → (∃ i, Mem i out) →
    Within (offset out (idx.map fun t => -t.start)) (lens (clip idx shape)) ∧
    Unit1 (offset out (idx.map fun t => -t.start)) ∧
    lens (offset out (idx.map fun t => -t.start)) = lens out ∧
    ∀ i, InShape i (lens out) →
      fromSlice (axOf (clip idx shape)) (fromSlice (axOf (offset out (idx.map fun t => -t.start))) i)
        = fromSlice (axOf out) i
  | [], [], [], _, _, _, _, _ => ⟨trivial, by simp [offset, Unit1], rfl, fun i hi => by cases i <;> rfl⟩
  | _ :: _, _, [], _, h, _, _, _ => by simp [Within] at h
  | [], _, _ :: _, _, h, _, _, _ => by simp [Within] at h
  | _, _ :: _, [], h, _, _, _, _ => by simp [Sliceable] at h
  | _, [], _ :: _, h, _, _, _, _ => by simp [Sliceable] at h
  | o :: out, t :: idx, n :: shape, hs, hw, hu, hsub, hne => by
    obtain ⟨⟨s1, s2, s3, s4⟩, hs'⟩ := hs
    obtain ⟨⟨w1, w2, w3, w4⟩, hw'⟩ := hw
    have ho := hu o (by simp)
    obtain ⟨i0, hi0⟩ := hne
    cases i0 with
    | nil => simp [Mem] at hi0
    | cons x0 i0 =>
      have hi0' := (mem_cons_unit ho).mp hi0
      have hax : t.start ≤ o.start ∧ o.stop ≤ t.stop ∧ o.start < o.stop := by
        refine ⟨?_, ?_, by omega⟩
        · have := (mem_cons_unit s4).mp (hsub (o.start :: i0) ((mem_cons_unit ho).mpr ⟨⟨by omega, by omega⟩, hi0'.2⟩))
          omega
        · have := (mem_cons_unit s4).mp (hsub ((o.stop - 1) :: i0) ((mem_cons_unit ho).mpr ⟨⟨by omega, by omega⟩, hi0'.2⟩))
          omega
      obtain ⟨ih1, ih2, ih3, ih4⟩ := translate_within (out := out) hs' hw' (fun t ht => hu t (by simp [ht]))
        (fun i hi => ((mem_cons_unit s4).mp (hsub (x0 :: i) ((mem_cons_unit ho).mpr ⟨hi0'.1, hi⟩))).2) ⟨i0, hi0'.2⟩
      have e : offset (o :: out) ((t :: idx).map fun t => -t.start)
          = ⟨o.start + -t.start, o.stop + -t.start, o.step⟩ :: offset out (idx.map fun t => -t.start) := rfl
      have e' : clip (t :: idx) (n :: shape) = ⟨t.start, min n t.stop, t.step⟩ :: clip idx shape := rfl
      rw [e, e']
      have hlen : rangeLen (o.start + -t.start) (o.stop + -t.start) o.step = rangeLen o.start o.stop o.step := by
        unfold rangeLen
        have e1 : o.stop + -t.start - (o.start + -t.start) - 1 = o.stop - o.start - 1 := by omega
        rw [e1, ho, if_pos one_pos, if_pos one_pos, if_pos (by omega), if_pos (by omega)]
      refine ⟨⟨⟨?_, ?_, ?_, ?_⟩, ih1⟩, ?_, ?_, ?_⟩
      · show 0 ≤ o.start + -t.start; omega
      · show o.start + -t.start ≤ o.stop + -t.start; omega
      · show o.stop + -t.start ≤ (rangeLen t.start (min n t.stop) t.step : Int)
        rw [s4, rangeLen_one (by omega)]; omega
      · show 1 ≤ o.step; omega
      · intro x hx
        rcases List.mem_cons.mp hx with rfl | hx
        · exact ho
        · exact ih2 x hx
      · simp only [lens, List.map_cons, hlen]
        congr 1
      · intro i hi
        cases i with
        | nil => simp [lens, InShape] at hi
        | cons x i =>
          simp only [axOf, List.map_cons, fromSlice]
          have := ih4 i hi.2
          simp only [axOf] at this
          rw [this, s4, ho]
          congr 1
          ring

theorem within_length : ∀ {idx : List Tri} {shape : List Nat}, Within idx shape → idx.length = shape.length
  | [], [], _ => rfl
  | [], _ :: _, h => by simp [Within] at h
  | _ :: _, [], h => by simp [Within] at h
  | _ :: _, _ :: _, h => by simp [within_length h.2]

theorem mem_length : ∀ {i : List Int} {idx : List Tri}, Mem i idx → i.length = idx.length
  | [], [], _ => rfl
  | [], _ :: _, h => by simp [Mem] at h
  | _ :: _, [], h => by simp [Mem] at h
  | _ :: _, _ :: _, h => by simp [mem_length h.2]

/-- C36: slicing a piece of `A` by an index gives `None` if they have no common position, and otherwise a
piece of `A[index]`, in the coordinates of the slice: position `i` belongs to it if and only if `i + start`
belongs to both. -/
theorem C36_slice_fragment {β} (A B : Nd β) (f : Frag β) (idx : List Tri) (hp : Piece A f) (h1 : Unit1 f.index)
    (hs : Sliceable idx A.shape) (hB : A.slice idx = some B) :
    (∃ g, f.slice idx = some (some g) ∧ Piece B g ∧ Unit1 g.index ∧
      ∀ i : List Int, i.length = idx.length →
        (Mem i g.index ↔ Mem (shift i (idx.map (·.start))) f.index ∧ Mem (shift i (idx.map (·.start))) idx)) ∨
    (f.slice idx = some none ∧ ∀ i, ¬ (Mem i f.index ∧ Mem i idx)) := by
  obtain ⟨f1, f2, f3, f4, f5, f6⟩ := sliceable_facts hs
  have hl : idx.length = f.index.length := by rw [f4, within_length hp.1]
  have hB' : B = { shape := lens (clip idx A.shape), at_ := fun i => A.at_ (fromSlice (axOf (clip idx A.shape)) i) } := by
    simp only [Nd.slice, f1, axes_within f2, Option.bind_eq_bind, Option.bind_some, Option.pure_def, Option.some.injEq] at hB
    rw [← hB]
    simp [axOf, lens, List.map_map, Function.comp_def]
  rcases C36_intersect A f idx hp h1 f3 hl with ⟨g, e, hg, hne, hm⟩ | ⟨e, hm⟩
  · left
    have hgu : Unit1 g.index := by
      unfold Frag.intersect at e
      rw [not_unit_any h1, not_unit_any f3] at e
      simp only [Bool.or_self, Bool.false_eq_true, if_false] at e
      split at e
      · simp only [Option.map_eq_some_iff, Option.some.injEq] at e
        obtain ⟨v, -, rfl⟩ := e
        exact unit_intersection f3
      · simp at e
    obtain ⟨hgw, v, hv, hvs, hva⟩ := piece_iff.mp hg
    obtain ⟨t1, t2, t3, t4⟩ := translate_within hs hgw hgu (fun i hi => ((hm i).mp hi).2) hne
    refine ⟨g.offsetBy (idx.map fun (t : Tri) => -t.start), by simp [Frag.slice, e], ?_, t2, ?_⟩
    · refine piece_iff.mpr ⟨by rw [hB']; exact t1, v, hv, ?_, ?_⟩
      · show v.shape = lens (offset _ _)
        rw [hvs, t3]
      · intro i hi
        have hi : InShape i (lens g.index) := by rw [← t3]; exact hi
        rw [hva i hi, hB']
        show _ = A.at_ (fromSlice _ (fromSlice _ i))
        rw [← t4 i hi]; rfl
    · intro i hi
      have hgl : g.index.length = idx.length := by
        obtain ⟨j, hj⟩ := hne
        have h1 := mem_length hj
        have h2 := mem_length ((hm j).mp hj).2
        omega
      have key := (C36_offset_translates g (idx.map fun t => -t.start) (shift i (idx.map (·.start)))
        (by simp [hgl]) (by simp [shift, hi, hgl])).1
      have e2 : shift (shift i (idx.map (·.start))) (idx.map fun t => -t.start) = i := by
        clear key
        unfold shift
        generalize idx = l at hi
        clear * - hi
        induction i generalizing l with
        | nil => simp
        | cons x i ih =>
          cases l with
          | nil => simp at hi
          | cons t l => simp only [List.map_cons, List.zipWith_cons_cons]; rw [ih l (by simpa using hi)]; congr 1; omega
      rw [e2] at key
      rw [key, hm]
  · right
    exact ⟨by simp [Frag.slice, e], hm⟩

theorem inShape_length : ∀ {i : List Int} {shape : List Nat}, InShape i shape → i.length = shape.length
  | [], [], _ => rfl
  | [], _ :: _, h => by simp [InShape] at h
  | _ :: _, [], h => by simp [InShape] at h
  | _ :: _, _ :: _, h => by simp [inShape_length h.2]

/-- C36: slicing commutes with assembling: for fragments (all steps 1) that are pieces of `A`, slicing them by
an index and assembling gives `A[index]`, provided they cover `A`. -/
theorem C36_slice_commutes {β} (A : Nd β) (l : List (Frag β)) (idx : List Tri) (junk : List Int → β)
    (hp : ∀ f ∈ l, Piece A f) (h1 : ∀ f ∈ l, Unit1 f.index) (hc : Covered A.shape l) (hs : Sliceable idx A.shape) :
    ∃ fs B r, Frags.slice ⟨A.shape, l⟩ idx = some fs ∧ A.slice idx = some B ∧ fs.shape = B.shape ∧
      (∀ g ∈ fs.fragments, Piece B g ∧ Unit1 g.index) ∧
      fs.toArray none junk = some r ∧ Same r B := by
  obtain ⟨f1, f2, f3, f4, f5, f6⟩ := sliceable_facts hs
  have hB : A.slice idx = some { shape := lens (clip idx A.shape), at_ := fun i => A.at_ (fromSlice (axOf (clip idx A.shape)) i) } := by
    simp only [Nd.slice, f1, axes_within f2, Option.bind_eq_bind, Option.bind_some, Option.pure_def, Option.some.injEq]
    simp [axOf, lens, List.map_map, Function.comp_def]
  generalize hBd : (⟨lens (clip idx A.shape), fun i => A.at_ (fromSlice (axOf (clip idx A.shape)) i)⟩ : Nd β) = B at hB
  have hBs : B.shape = lens (clip idx A.shape) := by rw [← hBd]
  -- every fragment slices without exception
  have hex : ∀ f ∈ l, ∃ o, f.slice idx = some o := by
    intro f hf
    rcases C36_slice_fragment A B f idx (hp f hf) (h1 f hf) hs hB with ⟨g, e, -⟩ | ⟨e, -⟩
    · exact ⟨_, e⟩
    · exact ⟨_, e⟩
  have hmap : l.mapM (fun f => f.slice idx) = some (l.map fun f => (f.slice idx).getD none) := by
    refine mapM_some l (fun f hf => ?_)
    obtain ⟨o, ho⟩ := hex f hf
    simp [ho]
  let fs : Frags β := ⟨B.shape, (l.map fun f => (f.slice idx).getD none).filterMap id⟩
  have hfs : Frags.slice ⟨A.shape, l⟩ idx = some fs := by
    unfold Frags.slice
    rw [not_unit_any f3]
    simp only [Bool.false_eq_true, if_false, f5, hmap, f6]
    simp [fs, hBs]
  have hpieces : ∀ g ∈ fs.fragments, Piece B g ∧ Unit1 g.index := by
    intro g hg
    simp only [fs, List.mem_filterMap, List.mem_map, id_eq] at hg
    obtain ⟨o, ⟨f, hf, rfl⟩, ho⟩ := hg
    rcases C36_slice_fragment A B f idx (hp f hf) (h1 f hf) hs hB with ⟨g', e, hg', hu, -⟩ | ⟨e, -⟩
    · rw [e] at ho
      simp at ho
      subst ho
      exact ⟨hg', hu⟩
    · rw [e] at ho; simp at ho
  have hcov : Covered B.shape fs.fragments := by
    intro i hi
    have hil : i.length = idx.length := by
      rw [inShape_length hi, hBs]; simp [lens, clip, f4]
    rw [hBs] at hi
    have hm := fromSlice_mem f2 hi
    have e : fromSlice (axOf (clip idx A.shape)) i = shift i (idx.map (·.start)) := by
      have : ∀ (idx : List Tri) (shape : List Nat) (i : List Int), Sliceable idx shape → i.length = idx.length →
          fromSlice (axOf (clip idx shape)) i = shift i (idx.map (·.start)) := by
        intro idx
        induction idx with
        | nil =>
          intro shape i h hi
          cases shape with
          | nil => cases i <;> rfl
          | cons _ _ => simp [Sliceable] at h
        | cons t idx ih =>
          intro shape i h hi
          cases shape with
          | nil => simp [Sliceable] at h
          | cons n shape =>
            cases i with
            | nil => simp at hi
            | cons x i =>
              have := ih shape i h.2 (by simpa using hi)
              have e' : clip (t :: idx) (n :: shape) = ⟨t.start, min n t.stop, t.step⟩ :: clip idx shape := rfl
              rw [e']
              show (t.start + t.step * x) :: fromSlice (axOf (clip idx shape)) i = (x + t.start) :: shift i (idx.map (·.start))
              rw [this, h.1.2.2.2]
              congr 1
              ring
      exact this _ _ _ hs hil
    obtain ⟨f, hf, hfm⟩ := hc _ (mem_inShape f2 hm)
    have hmi : Mem (shift i (idx.map (·.start))) idx := by
      rw [← e]
      have : ∀ (idx : List Tri) (shape : List Nat) (j : List Int), Mem j (clip idx shape) → idx.length = shape.length → Mem j idx := by
        intro idx
        induction idx with
        | nil =>
          intro shape j h hl
          cases shape with
          | nil => exact h
          | cons _ _ => simp at hl
        | cons t idx ih =>
          intro shape j h hl
          cases shape with
          | nil => simp at hl
          | cons n shape =>
            cases j with
            | nil => simp [clip, Mem] at h
            | cons x j =>
              obtain ⟨⟨a1, a2, k, a3⟩, h'⟩ := h
              refine ⟨⟨a1, ?_, k, a3⟩, ih shape j h' (by simpa using hl)⟩
              simp only at a2
              omega
      exact this _ _ _ hm f4
    rcases C36_slice_fragment A B f idx (hp f hf) (h1 f hf) hs hB with ⟨g, eg, -, -, hg⟩ | ⟨-, hno⟩
    · refine ⟨g, ?_, (hg i hil).mpr ⟨e ▸ hfm, hmi⟩⟩
      simp only [fs, List.mem_filterMap, List.mem_map, id_eq]
      exact ⟨some g, ⟨f, hf, by rw [eg]; rfl⟩, rfl⟩
    · exact absurd ⟨e ▸ hfm, hmi⟩ (hno _)
  obtain ⟨r, hr, hsame⟩ := C35_assemble B fs.fragments junk (fun g hg => (hpieces g hg).1) hcov
  exact ⟨fs, B, r, hfs, hB, rfl, hpieces, hr, hsame⟩

end Verif.Arrays
