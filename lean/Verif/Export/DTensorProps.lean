import Verif.Export.DTensor

/-!
# C131: a DTensor made from an array holds the array's values where its layout says
-/

namespace Verif.Export.DTensor

/-! ## Specification: uses only the types of DTensor.lean -/

/-- The size of an axis (1 if it is not in the mesh). -/
def sizeOf (m : Mesh) (a : Axis) : Nat := (m.lookup a).getD 1

/-- The axes a dimension is sharded over. -/
def axesOf : Entry → List Axis
  | .axis a => [a]
  | .axes as => as
  | _ => []

/-- Of a dimension sharded over several axes, the first varying slowest: the number of the piece that the
device at the coordinates `c` holds, after pieces of number `i`. -/
def pieceFrom (m : Mesh) (c : Axis → Nat) (i : Nat) : List Axis → Nat
  | [] => i
  | a :: as => pieceFrom m c (i * sizeOf m a + c a) as

/-- The number of pieces. -/
def pieces (m : Mesh) : List Axis → Nat
  | [] => 1
  | a :: as => sizeOf m a * pieces m as

/-- What a device holds of a dimension of size `n`: where it begins and how much. -/
def Held (m : Mesh) (c : Axis → Nat) (n : Nat) (as : List Axis) : Nat × Nat :=
  (pieceFrom m c 0 as * (n / pieces m as), n / pieces m as)

/-- Coordinates of a device of the mesh. -/
def Device (m : Mesh) (c : Axis → Nat) : Prop := ∀ a, c a < sizeOf m a

/-- The axes of dimension `d` in a spec; nothing beyond its end. -/
def specAxes (spec : List Entry) (d : Nat) : List Axis := axesOf (spec.getD d .none)

/-- The axes of dimension `d` in a layout. -/
def layoutAxes (lay : List (Option Axis)) (d : Nat) : List Axis := (lay.getD d none).toList

/-- Sharded over more than one axis that matters. -/
def ProductSharded (m : Mesh) (e : Entry) : Prop := 2 ≤ ((axesOf e).filter (fun a => decide (sizeOf m a ≠ 1))).length

/-- A spec that JAX accepts for an array: not more entries than dimensions, known axes with names, and sizes
that are multiples of the number of pieces. -/
structure ValidSpec (m : Mesh) (shape : List Nat) (spec : List Entry) : Prop where
  rank : spec.length ≤ shape.length
  kinds : ∀ e ∈ spec, e ≠ .other ∧ e ≠ .axis ""
  known : ∀ e ∈ spec, ∀ a ∈ axesOf e, ∃ k, m.lookup a = some k
  even : ∀ (d : Nat) (n : Nat) (e : Entry), shape[d]? = some n → spec[d]? = some e → n % pieces m (axesOf e) = 0

/-! ## Lemmas on sizes -/

theorem dimSizes_ok {m : Mesh} : ∀ {as : List Axis} {ks : List Nat}, dimSizes m as = .ok ks →
    ks = as.map (sizeOf m) ∧ ∀ a ∈ as, m.lookup a = some (sizeOf m a) := by
  intro as
  induction as with
  | nil => intro ks h; injection h with h; subst h; simp
  | cons a as ih =>
    intro ks h
    simp only [dimSizes, dimSize] at h
    cases hl : m.lookup a with
    | none => rw [hl] at h; cases h
    | some k =>
      rw [hl] at h
      dsimp only at h
      cases hd : dimSizes m as with
      | error e => rw [hd] at h; cases h
      | ok ks' =>
        rw [hd] at h
        injection h with h; subst h
        obtain ⟨h1, h2⟩ := ih hd
        have hs : sizeOf m a = k := by simp [sizeOf, hl]
        refine ⟨by simp [hs, h1], ?_⟩
        intro b hb
        rcases List.mem_cons.1 hb with rfl | hb
        · rw [hl, hs]
        · exact h2 b hb

theorem dimSizes_known {m : Mesh} : ∀ {as : List Axis}, (∀ a ∈ as, ∃ k, m.lookup a = some k) →
    dimSizes m as = .ok (as.map (sizeOf m)) := by
  intro as
  induction as with
  | nil => intro _; rfl
  | cons a as ih =>
    intro h
    obtain ⟨k, hk⟩ := h a (by simp)
    simp [dimSizes, dimSize, hk, ih (fun b hb => h b (by simp [hb])), sizeOf]

theorem notOne_eq {m : Mesh} {as : List Axis} (h : ∀ a ∈ as, m.lookup a = some (sizeOf m a)) :
    notOne m as = as.filter (fun a => decide (sizeOf m a ≠ 1)) := by
  unfold notOne
  apply List.filter_congr
  intro a ha
  rw [h a ha]
  by_cases h1 : sizeOf m a = 1 <;> simp [h1]

theorem count_add (m : Mesh) (as : List Axis) :
    (as.map (sizeOf m)).count 1 + (as.filter (fun a => decide (sizeOf m a ≠ 1))).length = as.length := by
  induction as with
  | nil => rfl
  | cons a as ih =>
    by_cases h : sizeOf m a = 1
    · simp [h] at ih ⊢; omega
    · simp [h] at ih ⊢; omega

theorem device_one {m : Mesh} {c : Axis → Nat} (hc : Device m c) {a : Axis} (h : sizeOf m a = 1) : c a = 0 := by
  have := hc a
  omega

theorem pieceFrom_filter {m : Mesh} {c : Axis → Nat} (hc : Device m c) : ∀ (as : List Axis) (i : Nat),
    pieceFrom m c i as = pieceFrom m c i (as.filter (fun a => decide (sizeOf m a ≠ 1))) := by
  intro as
  induction as with
  | nil => intro i; rfl
  | cons a as ih =>
    intro i
    by_cases h : sizeOf m a = 1
    · simp only [pieceFrom, h, device_one hc h]
      rw [List.filter_cons_of_neg (by simp [h]), ← ih]
      simp
    · rw [List.filter_cons_of_pos (by simp [h])]
      simp only [pieceFrom]
      exact ih _

theorem pieces_filter (m : Mesh) : ∀ (as : List Axis),
    pieces m as = pieces m (as.filter (fun a => decide (sizeOf m a ≠ 1))) := by
  intro as
  induction as with
  | nil => rfl
  | cons a as ih =>
    by_cases h : sizeOf m a = 1
    · rw [List.filter_cons_of_neg (by simp [h])]
      simp only [pieces, h, ih, Nat.one_mul]
    · rw [List.filter_cons_of_pos (by simp [h])]
      simp only [pieces, ih]

theorem held_filter {m : Mesh} {c : Axis → Nat} (hc : Device m c) (n : Nat) (as : List Axis) :
    Held m c n as = Held m c n (as.filter (fun a => decide (sizeOf m a ≠ 1))) := by
  unfold Held
  rw [pieceFrom_filter hc, pieces_filter]

/-! ## One dimension -/

/-- What `pick` gives. -/
theorem pick_ok {m : Mesh} {allow : Bool} {as : List Axis} {a : Axis} {r : Bool} (h : pick m allow as = .ok (a, r)) :
    (r = false → a ∈ as ∧ ∀ c, Device m c → ∀ n, Held m c n as = Held m c n [a]) ∧
    (r = true → allow = true ∧ 2 ≤ (as.filter (fun a => decide (sizeOf m a ≠ 1))).length ∧
      ∃ i, as[i]? = some a ∧ (∀ b ∈ as, sizeOf m b ≤ sizeOf m a) ∧ ∀ (j : Nat) (b : Axis), j < i → as[j]? = some b → sizeOf m b < sizeOf m a) := by
  unfold pick at h
  split at h
  · cases h
  · injection h with h; cases h
    exact ⟨fun _ => ⟨by simp, fun _ _ _ => rfl⟩, fun h => by cases h⟩
  · rename_i a0 b0 rest
    cases hd : dimSizes m (a0 :: b0 :: rest) with
    | error e => rw [hd] at h; cases h
    | ok sizes =>
      rw [hd] at h
      dsimp only at h
      obtain ⟨hs, hk⟩ := dimSizes_ok hd
      have hcount := count_add m (a0 :: b0 :: rest)
      rw [← hs] at hcount
      by_cases hlt : sizes.count 1 < (a0 :: b0 :: rest).length - 1
      · rw [if_pos hlt] at h
        by_cases ha : allow = true
        · rw [if_pos ha] at h
          injection h with h
          obtain ⟨h1, h2⟩ := Prod.mk.inj h
          subst h2
          refine ⟨fun h => (by cases h), fun _ => ⟨ha, by omega, ?_⟩⟩
          have hmax : ∀ (l : List Nat) (x : Nat), (∀ y ∈ l, y ≤ l.foldl max x) ∧ x ≤ l.foldl max x ∧
              (l.foldl max x = x ∨ l.foldl max x ∈ l) := by
            intro l
            induction l with
            | nil => intro x; simp
            | cons y l ih =>
              intro x
              obtain ⟨i1, i2, i3⟩ := ih (max x y)
              simp only [List.foldl_cons]
              refine ⟨?_, by omega, ?_⟩
              · intro z hz
                rcases List.mem_cons.1 hz with rfl | hz
                · omega
                · exact i1 z hz
              · rcases i3 with i3 | i3
                · rw [i3]
                  by_cases hxy : x ≤ y
                  · right; simp; left; omega
                  · left; omega
                · right; exact List.mem_cons_of_mem _ i3
          obtain ⟨g1, _, g3⟩ := hmax sizes 0
          have hmem : sizes.foldl max 0 ∈ sizes := by
            rcases g3 with g3 | g3
            · rw [g3]
              have : sizeOf m a0 ≤ 0 := by
                have := g1 (sizeOf m a0) (by rw [hs]; simp)
                omega
              have h0 : sizeOf m a0 = 0 := by omega
              rw [hs]; simp [h0]
            · exact g3
          have hidx := List.idxOf_lt_length_of_mem hmem
          have hlen : sizes.length = (a0 :: b0 :: rest).length := by rw [hs]; simp
          have hget : (a0 :: b0 :: rest)[sizes.idxOf (sizes.foldl max 0)]? = some a := by
            rw [← h1]
            rw [List.getD_eq_getElem?_getD]
            rw [List.getElem?_eq_getElem (by omega)]
            rfl
          have hsz : sizeOf m a = sizes.foldl max 0 := by
            have e1 : sizes[sizes.idxOf (sizes.foldl max 0)]? = some (sizeOf m a) := by
              have : (List.map (sizeOf m) (a0 :: b0 :: rest))[sizes.idxOf (sizes.foldl max 0)]? = some (sizeOf m a) := by
                rw [List.getElem?_map, hget]; rfl
              rw [← hs] at this; exact this
            rw [List.getElem?_eq_getElem hidx, List.getElem_idxOf hidx] at e1
            exact (Option.some.inj e1).symm
          refine ⟨_, hget, ?_, ?_⟩
          · intro b hb
            rw [hsz]
            exact g1 _ (by rw [hs]; exact List.mem_map.2 ⟨b, hb, rfl⟩)
          · intro j b hj hb
            have hle : sizeOf m b ≤ sizeOf m a := by
              rw [hsz]
              exact g1 _ (by rw [hs]; exact List.mem_map.2 ⟨b, List.mem_of_getElem? hb, rfl⟩)
            have hne : sizeOf m b ≠ sizeOf m a := by
              intro heq
              have hjl : j < sizes.length := by omega
              have e1 : sizes[j]? = some (sizeOf m b) := by
                have : (List.map (sizeOf m) (a0 :: b0 :: rest))[j]? = some (sizeOf m b) := by
                  rw [List.getElem?_map, hb]; rfl
                rw [← hs] at this; exact this
              rw [List.getElem?_eq_getElem hjl] at e1
              have e2 := Option.some.inj e1
              have := List.not_of_lt_findIdx (p := fun x => x == sizes.foldl max 0) hj
              rw [e2, heq, hsz] at this
              simp at this
            omega
        · rw [if_neg ha] at h; cases h
      · rw [if_neg hlt] at h
        rw [notOne_eq hk] at h
        have hlen : (a0 :: b0 :: rest).length = rest.length + 2 := rfl
        generalize hf : (a0 :: b0 :: rest).filter (fun a => decide (sizeOf m a ≠ 1)) = f at h hcount ⊢
        cases f with
        | nil =>
          injection h with h
          obtain ⟨h1, h2⟩ := Prod.mk.inj h
          subst h2; subst h1
          refine ⟨fun _ => ⟨by simp, fun c hc n => ?_⟩, fun h => by cases h⟩
          rw [held_filter hc n (a0 :: b0 :: rest), hf]
          have h1 : sizeOf m a0 = 1 := by
            have : a0 ∉ (a0 :: b0 :: rest).filter (fun a => decide (sizeOf m a ≠ 1)) := by rw [hf]; simp
            exact Classical.byContradiction fun hne => this (by simp [hne])
          rw [held_filter hc n [a0]]
          simp [h1]
        | cons b f =>
          cases f with
          | nil =>
            injection h with h; cases h
            refine ⟨fun _ => ⟨?_, fun c hc n => ?_⟩, fun h => by cases h⟩
            · have : a ∈ (a0 :: b0 :: rest).filter (fun a => decide (sizeOf m a ≠ 1)) := by rw [hf]; simp
              exact (List.mem_filter.1 this).1
            · rw [held_filter hc n (a0 :: b0 :: rest), hf]
          | cons b' f => cases h

theorem check_ok {m : Mesh} {n : Option Nat} {a : Axis} {r : Bool} {x : Option Axis × Bool} (h : check m n a r = .ok x) :
    x = (some a, r) := by
  unfold check at h
  split at h
  · cases h
  · split at h
    · cases h
    · split at h
      · cases h
      · injection h with h; exact h.symm

/-- One entry: without resharding a device holds the same; with it, the largest of the axes is left. -/
def GoodEntry (m : Mesh) (allow : Bool) (e : Entry) (a : Option Axis) (r : Bool) : Prop :=
  (r = false → (∀ b ∈ a, b ∈ axesOf e) ∧ (e ≠ .axis "" → ∀ c, Device m c → ∀ n, Held m c n (axesOf e) = Held m c n a.toList)) ∧
  (r = true → allow = true ∧ ProductSharded m e ∧
    ∃ b i, a = some b ∧ (axesOf e)[i]? = some b ∧ (∀ x ∈ axesOf e, sizeOf m x ≤ sizeOf m b) ∧
      ∀ (j : Nat) (x : Axis), j < i → (axesOf e)[j]? = some x → sizeOf m x < sizeOf m b)

theorem entry_ok {m : Mesh} {allow : Bool} {n : Option Nat} {e : Entry} {a : Option Axis} {r : Bool}
    (h : entry m allow n e = .ok (a, r)) : GoodEntry m allow e a r := by
  unfold entry at h
  split at h
  · injection h with h; cases h
    exact ⟨fun _ => ⟨by simp, fun _ _ _ _ => rfl⟩, fun h => by cases h⟩
  · rename_i x
    split at h
    · rename_i hx
      injection h with h; cases h
      subst hx
      exact ⟨fun _ => ⟨by simp, fun h => absurd rfl h⟩, fun h => by cases h⟩
    · have := check_ok h
      cases this
      exact ⟨fun _ => ⟨by simp [axesOf], fun _ _ _ _ => rfl⟩, fun h => by cases h⟩
  · injection h with h; cases h
    exact ⟨fun _ => ⟨by simp, fun _ _ _ _ => rfl⟩, fun h => by cases h⟩
  · rename_i as _
    split at h
    · cases h
    · rename_i b r' hp
      have := check_ok h
      cases this
      obtain ⟨h1, h2⟩ := pick_ok hp
      refine ⟨fun hr => ⟨?_, fun _ c hc n => (h1 hr).2 c hc n⟩, fun hr => ?_⟩
      · intro x hx
        cases hx
        exact (h1 hr).1
      · obtain ⟨ha, hpr, i, hi, hm, hj⟩ := h2 hr
        exact ⟨ha, hpr, b, i, rfl, hi, hm, hj⟩
  · cases h

/-- The layout, dimension by dimension. -/
theorem layout_ok {m : Mesh} {allow : Bool} : ∀ {spec : List Entry} {shape : List Nat} {lay : List (Option Axis)} {r : Bool},
    layout m allow shape spec = .ok (lay, r) →
      lay.length = max shape.length spec.length ∧
      (∀ d, spec.length ≤ d → lay.getD d none = none) ∧
      (∀ (d : Nat) (e : Entry), spec[d]? = some e → ∃ rd, GoodEntry m allow e (lay.getD d none) rd ∧ (r = false → rd = false)) ∧
      (r = true → ∃ (d : Nat) (e : Entry), spec[d]? = some e ∧ GoodEntry m allow e (lay.getD d none) true) := by
  intro spec
  induction spec with
  | nil =>
    intro shape lay r h
    injection h with h
    cases h
    refine ⟨by simp, ?_, by simp, fun h => by cases h⟩
    intro d _
    rw [List.getD_eq_getElem?_getD]
    by_cases hd : d < shape.length
    · simp [hd]
    · simp [hd]
  | cons e es ih =>
    intro shape lay r h
    simp only [layout] at h
    split at h
    · cases h
    · rename_i a r1 he
      split at h
      · cases h
      · rename_i as r2 hl
        injection h with h
        obtain ⟨h1, h2⟩ := Prod.mk.inj h
        subst h1
        obtain ⟨i0, i1, i2, i3⟩ := ih hl
        refine ⟨?_, ?_, ?_, ?_⟩
        · simp only [List.length_cons, i0, List.length_tail]; omega
        · intro d hd
          cases d with
          | zero => simp at hd
          | succ d => simpa using i1 d (by simpa using hd)
        · intro d e' hd
          cases d with
          | zero =>
            simp at hd; subst hd
            refine ⟨r1, by simpa using entry_ok he, ?_⟩
            intro hr; rw [hr] at h2; simp at h2; exact h2.1
          | succ d =>
            obtain ⟨rd, g1, g2⟩ := i2 d e' (by simpa using hd)
            refine ⟨rd, by simpa using g1, ?_⟩
            intro hr; rw [hr] at h2; simp at h2; exact g2 h2.2
        · intro hr
          rw [hr] at h2
          by_cases h3 : r1 = true
          · subst h3
            exact ⟨0, e, rfl, by simpa using entry_ok he⟩
          · simp at h3
            subst h3
            simp at h2
            obtain ⟨d, e', g1, g2⟩ := i3 h2
            exact ⟨d + 1, e', by simpa using g1, by simpa using g2⟩

/-! ## The property -/

/-- C131: the pieces that are packed are those that the layout expects: every device holds, of every
dimension, the same part of the array in the spec the data is taken with and in the layout. So every value
of the DTensor is the value of the array at that place. -/
theorem C131_faithful (m : Mesh) (jaxMesh allow : Bool) (shape : List Nat) (spec : List Entry) (p : Packed)
    (h : convert m jaxMesh allow shape spec = .ok p) (hne : ∀ e ∈ spec, e ≠ .axis "")
    (c : Axis → Nat) (hc : Device m c) (d n : Nat) :
    Held m c n (specAxes p.data d) = Held m c n (layoutAxes p.layout d) := by
  unfold convert at h
  split at h
  · cases h
  · rename_i lay hl
    injection h with h; subst h
    obtain ⟨_, h1, h2, _⟩ := layout_ok hl
    dsimp only [specAxes, layoutAxes]
    cases hs : spec[d]? with
    | none =>
      rw [h1 d (by simpa using hs)]
      rw [List.getD_eq_getElem?_getD, hs]
      rfl
    | some e =>
      obtain ⟨rd, g1, g2⟩ := h2 d e hs
      have hrd := g2 rfl
      subst hrd
      rw [List.getD_eq_getElem?_getD (l := spec), hs]
      exact (g1.1 rfl).2 (hne e (List.mem_of_getElem? hs)) c hc n
  · rename_i lay hl
    split at h
    · injection h with h; subst h
      dsimp only [specAxes, layoutAxes]
      rw [List.getD_eq_getElem?_getD, List.getD_eq_getElem?_getD, List.getElem?_map]
      cases lay[d]? with
      | none => rfl
      | some a => cases a <;> rfl
    · cases h

/-- C131: the layout has all the dimensions of the array, sharded only over axes that the spec names for
the same dimension. -/
theorem C131_layout (m : Mesh) (jaxMesh allow : Bool) (shape : List Nat) (spec : List Entry) (p : Packed)
    (h : convert m jaxMesh allow shape spec = .ok p) (hr : spec.length ≤ shape.length) :
    p.layout.length = shape.length ∧ ∀ d, ∀ a ∈ layoutAxes p.layout d, a ∈ specAxes spec d := by
  have key : ∃ r, layout m allow shape spec = .ok (p.layout, r) := by
    unfold convert at h
    split at h
    · cases h
    · rename_i lay hl; injection h with h; subst h; exact ⟨_, hl⟩
    · rename_i lay hl
      split at h
      · injection h with h; subst h; exact ⟨_, hl⟩
      · cases h
  obtain ⟨r, hl⟩ := key
  obtain ⟨h0, h1, h2, _⟩ := layout_ok hl
  refine ⟨by rw [h0]; omega, ?_⟩
  intro d a ha
  unfold layoutAxes at ha
  unfold specAxes
  cases hs : spec[d]? with
  | none => rw [h1 d (by simpa using hs)] at ha; simp at ha
  | some e =>
    rw [List.getD_eq_getElem?_getD, hs]
    obtain ⟨rd, g1, _⟩ := h2 d e hs
    cases rd with
    | false => exact (g1.1 rfl).1 a (by simpa using ha)
    | true =>
      obtain ⟨_, _, b, i, hb, hi, _⟩ := g1.2 rfl
      rw [hb] at ha
      simp at ha; subst ha
      exact List.mem_of_getElem? hi

/-- C131: if no dimension is sharded over several axes that matter, the data is taken as it is, and nothing
is resharded. -/
theorem C131_unchanged (m : Mesh) (jaxMesh allow : Bool) (shape : List Nat) (spec : List Entry) (p : Packed)
    (h : convert m jaxMesh allow shape spec = .ok p) (hn : ∀ e ∈ spec, ¬ ProductSharded m e) : p.data = spec := by
  unfold convert at h
  split at h
  · cases h
  · injection h with h; subst h; rfl
  · rename_i lay hl
    obtain ⟨_, _, _, h3⟩ := layout_ok hl
    obtain ⟨d, e, hd, hg⟩ := h3 rfl
    exact absurd (hg.2 rfl).2.1 (hn e (List.mem_of_getElem? hd))

/-- C131: unless it is allowed, nothing is resharded. -/
theorem C131_not_allowed (m : Mesh) (jaxMesh : Bool) (shape : List Nat) (spec : List Entry) (p : Packed)
    (h : convert m jaxMesh false shape spec = .ok p) : p.data = spec := by
  unfold convert at h
  split at h
  · cases h
  · injection h with h; subst h; rfl
  · rename_i lay hl
    obtain ⟨_, _, _, h3⟩ := layout_ok hl
    obtain ⟨d, e, hd, hg⟩ := h3 rfl
    exact absurd (hg.2 rfl).1 (by decide)

theorem pieces_dvd (m : Mesh) (as : List Axis) : ∀ a ∈ as, sizeOf m a ∣ pieces m as := by
  induction as with
  | nil => simp
  | cons b as ih =>
    intro a ha
    rcases List.mem_cons.1 ha with rfl | ha
    · exact Nat.dvd_mul_right _ _
    · exact Nat.dvd_trans (ih a ha) (Nat.dvd_mul_left _ _)

theorem check_known {m : Mesh} {n : Nat} {as : List Axis} {a : Axis} {r : Bool} (hk : ∃ k, m.lookup a = some k) (ha : a ∈ as)
    (hd : n % pieces m as = 0) : check m (some n) a r = .ok (some a, r) := by
  obtain ⟨k, hk⟩ := hk
  have hs : sizeOf m a = k := by simp [sizeOf, hk]
  have h1 : n % k = 0 := by
    rw [← hs]
    exact Nat.mod_eq_zero_of_dvd (Nat.dvd_trans (pieces_dvd m as a ha) (Nat.dvd_of_mod_eq_zero hd))
  simp [check, dimSize, hk, h1]

/-- What `pick` accepts. -/
theorem pick_accepts {m : Mesh} {allow : Bool} {as : List Axis} (hk : ∀ a ∈ as, ∃ k, m.lookup a = some k) (hne : as ≠ []) :
    (2 ≤ (as.filter (fun a => decide (sizeOf m a ≠ 1))).length →
      if allow then ∃ a ∈ as, pick m allow as = .ok (a, true) else pick m allow as = .error .value) ∧
    (¬ 2 ≤ (as.filter (fun a => decide (sizeOf m a ≠ 1))).length → ∃ a ∈ as, pick m allow as = .ok (a, false)) := by
  match as, hne with
  | [a], _ =>
    constructor
    · intro h
      have := List.length_filter_le (fun a => decide (sizeOf m a ≠ 1)) [a]
      simp only [List.length_singleton] at this
      omega
    · intro _; exact ⟨a, by simp, rfl⟩
  | a0 :: b0 :: rest, _ =>
    have hds := dimSizes_known hk
    have hk' := (dimSizes_ok hds).2
    have hcount := count_add m (a0 :: b0 :: rest)
    have hlen : (a0 :: b0 :: rest).length = rest.length + 2 := rfl
    constructor
    · intro h
      have hlt : ((a0 :: b0 :: rest).map (sizeOf m)).count 1 < (a0 :: b0 :: rest).length - 1 := by omega
      cases allow with
      | false =>
        simp only [Bool.false_eq_true, if_false]
        simp only [pick, hds]
        rw [if_pos hlt]
        rfl
      | true =>
        simp only [if_true]
        have : ∃ a, pick m true (a0 :: b0 :: rest) = .ok (a, true) := by
          simp only [pick, hds]
          rw [if_pos hlt]
          exact ⟨_, rfl⟩
        obtain ⟨a, ha⟩ := this
        obtain ⟨_, _, i, hi, _⟩ := (pick_ok ha).2 rfl
        exact ⟨a, List.mem_of_getElem? hi, ha⟩
    · intro h
      have hlt : ¬ ((a0 :: b0 :: rest).map (sizeOf m)).count 1 < (a0 :: b0 :: rest).length - 1 := by omega
      have : ∃ a, pick m allow (a0 :: b0 :: rest) = .ok (a, false) := by
        simp only [pick, hds]
        rw [if_neg hlt, notOne_eq hk']
        generalize (a0 :: b0 :: rest).filter (fun a => decide (sizeOf m a ≠ 1)) = f at h ⊢
        match f with
        | [] => exact ⟨_, rfl⟩
        | [b] => exact ⟨_, rfl⟩
        | _ :: _ :: _ => simp at h
      obtain ⟨a, ha⟩ := this
      exact ⟨a, ((pick_ok ha).1 rfl).1, ha⟩

/-- One entry of a valid spec. -/
theorem entry_accepts {m : Mesh} {allow : Bool} {n : Nat} {e : Entry} (h1 : e ≠ .other) (h2 : e ≠ .axis "")
    (hk : ∀ a ∈ axesOf e, ∃ k, m.lookup a = some k) (hd : n % pieces m (axesOf e) = 0) :
    (ProductSharded m e → if allow then ∃ a, entry m allow (some n) e = .ok (a, true) else entry m allow (some n) e = .error .value) ∧
    (¬ ProductSharded m e → ∃ a, entry m allow (some n) e = .ok (a, false)) := by
  unfold ProductSharded
  cases e with
  | none => exact ⟨fun h => by simp [axesOf] at h, fun _ => ⟨none, rfl⟩⟩
  | other => exact absurd rfl h1
  | axis a =>
    have ha : a ≠ "" := fun h => h2 (by rw [h])
    constructor
    · intro h
      have := List.length_filter_le (fun a => decide (sizeOf m a ≠ 1)) (axesOf (.axis a))
      simp only [axesOf, List.length_singleton] at this h
      omega
    · intro _
      refine ⟨some a, ?_⟩
      simp only [entry, ha, if_false]
      exact check_known (hk a (by simp [axesOf])) (by simp [axesOf]) hd
  | axes as =>
    cases as with
    | nil => exact ⟨fun h => by simp [axesOf] at h, fun _ => ⟨none, rfl⟩⟩
    | cons a0 as =>
      obtain ⟨p1, p2⟩ := pick_accepts (allow := allow) (as := a0 :: as) hk (by simp)
      constructor
      · intro h
        have := p1 h
        cases allow with
        | false =>
          simp only [Bool.false_eq_true, if_false] at this ⊢
          simp only [entry, this]
        | true =>
          simp only [if_true] at this ⊢
          obtain ⟨a, ha, hp⟩ := this
          refine ⟨some a, ?_⟩
          simp only [entry, hp]
          exact check_known (hk a ha) (by simpa [axesOf] using ha) hd
      · intro h
        obtain ⟨a, ha, hp⟩ := p2 h
        refine ⟨some a, ?_⟩
        simp only [entry, hp]
        exact check_known (hk a ha) (by simpa [axesOf] using ha) hd

theorem valid_tail {m : Mesh} {n : Nat} {shape : List Nat} {e : Entry} {es : List Entry} (h : ValidSpec m (n :: shape) (e :: es)) :
    ValidSpec m shape es where
  rank := by have := h.rank; simp at this; exact this
  kinds := fun e he => h.kinds e (by simp [he])
  known := fun e he => h.known e (by simp [he])
  even := fun d n e h1 h2 => h.even (d + 1) n e (by simpa using h1) (by simpa using h2)

theorem layout_accepts {m : Mesh} {allow : Bool} : ∀ {spec : List Entry} {shape : List Nat}, ValidSpec m shape spec →
    ((∀ e ∈ spec, ¬ ProductSharded m e) → ∃ lay, layout m allow shape spec = .ok (lay, false)) ∧
    ((∃ e ∈ spec, ProductSharded m e) →
      if allow then ∃ lay, layout m allow shape spec = .ok (lay, true) else layout m allow shape spec = .error .value) := by
  intro spec
  induction spec with
  | nil => intro shape _; exact ⟨fun _ => ⟨_, rfl⟩, fun ⟨e, he, _⟩ => by cases he⟩
  | cons e es ih =>
    intro shape hv
    match shape, hv with
    | [], hv => exact absurd hv.rank (by simp)
    | n :: shape, hv =>
      obtain ⟨i1, i2⟩ := ih (valid_tail hv)
      obtain ⟨e1, e2⟩ := entry_accepts (allow := allow) (n := n) (hv.kinds e (by simp)).1 (hv.kinds e (by simp)).2
        (hv.known e (by simp)) (hv.even 0 n e rfl rfl)
      constructor
      · intro hno
        obtain ⟨a, ha⟩ := e2 (hno e (by simp))
        obtain ⟨lay, hl⟩ := i1 (fun e he => hno e (by simp [he]))
        exact ⟨a :: lay, by simp [layout, ha, hl]⟩
      · rintro ⟨e', he', hp⟩
        cases allow with
        | false =>
          simp only [Bool.false_eq_true, if_false] at e1 i2 ⊢
          by_cases hpe : ProductSharded m e
          · simp only [layout, List.head?_cons, e1 hpe]
          · obtain ⟨a, ha⟩ := e2 hpe
            rcases List.mem_cons.1 he' with rfl | he'
            · exact absurd hp hpe
            · simp only [layout, List.head?_cons, ha, List.tail_cons, i2 ⟨e', he', hp⟩]
        | true =>
          simp only [if_true] at e1 i2 ⊢
          have hrest : ∃ lay r, layout m true shape es = .ok (lay, r) ∧ ((∃ e ∈ es, ProductSharded m e) → r = true) := by
            by_cases hex : ∃ e ∈ es, ProductSharded m e
            · obtain ⟨lay, hl⟩ := i2 hex; exact ⟨lay, true, hl, fun _ => rfl⟩
            · obtain ⟨lay, hl⟩ := i1 (fun e he hp => hex ⟨e, he, hp⟩)
              exact ⟨lay, false, hl, fun h => absurd h hex⟩
          obtain ⟨lay, r, hl, hr⟩ := hrest
          by_cases hpe : ProductSharded m e
          · obtain ⟨a, ha⟩ := e1 hpe
            exact ⟨a :: lay, by simp [layout, ha, hl]⟩
          · obtain ⟨a, ha⟩ := e2 hpe
            rcases List.mem_cons.1 he' with rfl | he'
            · exact absurd hp hpe
            · have := hr ⟨e', he', hp⟩
              subst this
              exact ⟨a :: lay, by simp [layout, ha, hl]⟩

/-- C131: every valid spec is converted, except that sharding over several axes that matter has to be
allowed, with the mesh given. -/
theorem C131_accepts (m : Mesh) (jaxMesh allow : Bool) (shape : List Nat) (spec : List Entry) (hv : ValidSpec m shape spec) :
    (∃ p, convert m jaxMesh allow shape spec = .ok p) ↔
      (∀ e ∈ spec, ¬ ProductSharded m e) ∨ (allow = true ∧ jaxMesh = true) := by
  obtain ⟨l1, l2⟩ := layout_accepts (allow := allow) hv
  by_cases hex : ∃ e ∈ spec, ProductSharded m e
  · have hno : ¬ ∀ e ∈ spec, ¬ ProductSharded m e := fun h => by
      obtain ⟨e, he, hp⟩ := hex; exact h e he hp
    have := l2 hex
    cases allow with
    | false =>
      simp only [Bool.false_eq_true, if_false] at this
      simp [convert, this, hno]
    | true =>
      simp only [if_true] at this
      obtain ⟨lay, hl⟩ := this
      cases jaxMesh <;> simp [convert, hl, hno]
  · have hno : ∀ e ∈ spec, ¬ ProductSharded m e := fun e he hp => hex ⟨e, he, hp⟩
    obtain ⟨lay, hl⟩ := l1 hno
    exact ⟨fun _ => Or.inl hno, fun _ => ⟨⟨lay, spec⟩, by simp only [convert, hl]⟩⟩

/-- C131: of several axes the first of those with the greatest size is left. -/
theorem C131_consolidated (m : Mesh) (jaxMesh : Bool) (shape : List Nat) (spec : List Entry) (p : Packed)
    (hv : ValidSpec m shape spec) (h : convert m jaxMesh true shape spec = .ok p) (d : Nat) (e : Entry)
    (hd : spec[d]? = some e) (hp : ProductSharded m e) :
    ∃ b i, layoutAxes p.layout d = [b] ∧ (axesOf e)[i]? = some b ∧ (∀ x ∈ axesOf e, sizeOf m x ≤ sizeOf m b) ∧
      ∀ (j : Nat) (x : Axis), j < i → (axesOf e)[j]? = some x → sizeOf m x < sizeOf m b := by
  have hmem := List.mem_of_getElem? hd
  obtain ⟨_, l2⟩ := layout_accepts (allow := true) hv
  obtain ⟨lay, hl⟩ := l2 ⟨e, hmem, hp⟩
  have hlay : p.layout = lay := by
    simp only [convert, hl] at h
    split at h
    · injection h with h; subst h; rfl
    · cases h
  rw [hlay]
  have gen : ∀ (spec : List Entry) (shape : List Nat) (lay : List (Option Axis)) (r : Bool) (d : Nat), ValidSpec m shape spec →
      layout m true shape spec = .ok (lay, r) → spec[d]? = some e → GoodEntry m true e (lay.getD d none) true := by
    intro spec
    induction spec with
    | nil => intro shape lay r d _ _ h; simp at h
    | cons e' es ih =>
      intro shape lay r d hv hl hd
      match shape, hv with
      | [], hv => exact absurd hv.rank (by simp)
      | n :: shape, hv =>
        simp only [layout, List.head?_cons, List.tail_cons] at hl
        split at hl
        · cases hl
        · rename_i a r1 he
          split at hl
          · cases hl
          · rename_i as r2 hl'
            injection hl with hl
            obtain ⟨g1, _⟩ := Prod.mk.inj hl
            subst g1
            cases d with
            | zero =>
              simp at hd; subst hd
              obtain ⟨e1, _⟩ := entry_accepts (allow := true) (n := n) (hv.kinds e' (by simp)).1 (hv.kinds e' (by simp)).2
                (hv.known e' (by simp)) (hv.even 0 n e' rfl rfl)
              obtain ⟨a', ha'⟩ := e1 hp
              rw [he] at ha'
              injection ha' with ha'
              cases ha'
              simpa using entry_ok he
            | succ d => simpa using ih shape as r2 d (valid_tail hv) hl' (by simpa using hd)
  obtain ⟨_, _, b, i, hb, hi, hm, hj⟩ := (gen spec shape lay true d hv hl hd).2 rfl
  exact ⟨b, i, by unfold layoutAxes; rw [hb]; rfl, hi, hm, hj⟩

theorem check_div {m : Mesh} {n : Option Nat} {a : Axis} {r : Bool} {x : Option Axis × Bool} (h : check m n a r = .ok x) :
    ∃ k n', m.lookup a = some k ∧ n = some n' ∧ n' % k = 0 := by
  unfold check dimSize at h
  cases hl : m.lookup a with
  | none => rw [hl] at h; cases h
  | some k =>
    rw [hl] at h
    cases n with
    | none => cases h
    | some n' =>
      dsimp only at h
      by_cases hd : n' % k = 0
      · exact ⟨k, n', rfl, rfl, hd⟩
      · rw [if_pos hd] at h; cases h

theorem entry_div {m : Mesh} {allow : Bool} {n : Option Nat} {e : Entry} {a : Option Axis} {r : Bool}
    (h : entry m allow n e = .ok (a, r)) : e ≠ .other ∧ ∀ b, a = some b → ∃ k n', m.lookup b = some k ∧ n = some n' ∧ n' % k = 0 := by
  unfold entry at h
  split at h
  · injection h with h; cases h
    exact ⟨by simp, by simp⟩
  · split at h
    · injection h with h; cases h
      exact ⟨by simp, by simp⟩
    · have := check_ok h
      cases this
      exact ⟨by simp, fun b hb => by cases hb; exact check_div h⟩
  · injection h with h; cases h
    exact ⟨by simp, by simp⟩
  · split at h
    · cases h
    · have := check_ok h
      cases this
      exact ⟨by simp, fun b hb => by cases hb; exact check_div h⟩
  · cases h

/-- C131: an entry that is no axis, an unknown axis in the layout, and a size that the axis does not divide
are refused. -/
theorem C131_refuses (m : Mesh) (jaxMesh allow : Bool) (shape : List Nat) (spec : List Entry) (p : Packed)
    (h : convert m jaxMesh allow shape spec = .ok p) :
    (∀ e ∈ spec, e ≠ .other) ∧
    ∀ (d : Nat) (a : Axis), a ∈ layoutAxes p.layout d → ∃ k n, m.lookup a = some k ∧ shape[d]? = some n ∧ n % k = 0 := by
  have key : ∃ r, layout m allow shape spec = .ok (p.layout, r) := by
    unfold convert at h
    split at h
    · cases h
    · rename_i lay hl; injection h with h; subst h; exact ⟨_, hl⟩
    · rename_i lay hl
      split at h
      · injection h with h; subst h; exact ⟨_, hl⟩
      · cases h
  obtain ⟨r, hl⟩ := key
  generalize p.layout = lay at hl ⊢
  clear h
  induction spec generalizing shape lay r with
  | nil =>
    injection hl with hl
    cases hl
    refine ⟨by simp, ?_⟩
    intro d a ha
    unfold layoutAxes at ha
    rw [List.getD_eq_getElem?_getD, List.getElem?_map] at ha
    cases hd : shape[d]? <;> simp [hd] at ha
  | cons e es ih =>
    simp only [layout] at hl
    split at hl
    · cases hl
    · rename_i a r1 he
      split at hl
      · cases hl
      · rename_i as r2 hl'
        injection hl with hl
        obtain ⟨h1, _⟩ := Prod.mk.inj hl
        subst h1
        obtain ⟨i1, i2⟩ := ih shape.tail _ _ hl'
        obtain ⟨e1, e2⟩ := entry_div he
        refine ⟨?_, ?_⟩
        · intro x hx
          rcases List.mem_cons.1 hx with rfl | hx
          · exact e1
          · exact i1 x hx
        · intro d b hb
          cases d with
          | zero =>
            have hb' : a = some b := by
              unfold layoutAxes at hb; simpa using hb
            obtain ⟨k, n, g1, g2, g3⟩ := e2 b hb'
            refine ⟨k, n, g1, ?_, g3⟩
            rw [← g2]
            cases shape <;> rfl
          | succ d =>
            obtain ⟨k, n, g1, g2, g3⟩ := i2 d b (by unfold layoutAxes at hb ⊢; simpa using hb)
            refine ⟨k, n, g1, ?_, g3⟩
            rw [← g2]
            cases shape <;> simp

/-! ## Specs of trees -/

/-- C131: the specs of a tree are those of its arrays, replicated for leaves without sharding; it is
refused exactly if a sharding is of another kind or two arrays are on different meshes. -/
theorem C131_tree {M S : Type} [DecidableEq M] (empty : S) (ls : List (Leaf M S)) :
    (∀ r, pspecs empty none ls = .ok r →
      r = ls.map (fun l => match l with | .named _ s => s | _ => empty)) ∧
    ((∃ r, pspecs empty none ls = .ok r) ↔
      Leaf.foreign ∉ ls ∧ ∀ m s m' s', Leaf.named m s ∈ ls → Leaf.named m' s' ∈ ls → m = m') := by
  have gen : ∀ (ls : List (Leaf M S)) (ex : Option M),
      (∀ r, pspecs empty ex ls = .ok r → r = ls.map (fun l => match l with | .named _ s => s | _ => empty)) ∧
      ((∃ r, pspecs empty ex ls = .ok r) ↔
        Leaf.foreign ∉ ls ∧ (∀ m s m' s', Leaf.named m s ∈ ls → Leaf.named m' s' ∈ ls → m = m') ∧
          ∀ m s m', ex = some m' → Leaf.named m s ∈ ls → m = m') := by
    intro ls
    induction ls with
    | nil => intro ex; simp [pspecs]
    | cons l ls ih =>
      intro ex
      cases l with
      | foreign => simp [pspecs]
      | unsharded =>
        obtain ⟨i1, i2⟩ := ih ex
        constructor
        · intro r h
          simp only [pspecs] at h
          split at h
          · rename_i r' hr
            injection h with h; subst h
            rw [i1 r' hr]; rfl
          · cases h
        · have : (∃ r, pspecs empty ex (Leaf.unsharded :: ls) = .ok r) ↔ ∃ r, pspecs empty ex ls = .ok r := by
            simp only [pspecs]
            cases pspecs empty ex ls <;> simp
          rw [this, i2]
          simp
      | named m s =>
        obtain ⟨i1, i2⟩ := ih (some (ex.getD m))
        constructor
        · intro r h
          simp only [pspecs] at h
          split at h
          · cases h
          · split at h
            · rename_i r' hr
              injection h with h; subst h
              rw [i1 r' hr]; rfl
            · cases h
        · by_cases hw : ex.getD m = m
          · have : (∃ r, pspecs empty ex (Leaf.named m s :: ls) = .ok r) ↔ ∃ r, pspecs empty (some (ex.getD m)) ls = .ok r := by
              simp only [pspecs, hw, ne_eq, not_true, if_false]
              cases pspecs empty (some m) ls <;> simp
            rw [this, i2, hw]
            constructor
            · rintro ⟨h1, h2, h3⟩
              refine ⟨by simpa using h1, ?_, ?_⟩
              · intro a s1 b s2 ha hb
                have f : ∀ x t, Leaf.named x t ∈ Leaf.named m s :: ls → x = m := by
                  intro x t hx
                  rcases List.mem_cons.1 hx with hx | hx
                  · cases hx; rfl
                  · exact h3 x t m rfl hx
                rw [f a s1 ha, f b s2 hb]
              · intro a s1 b hb ha
                subst hb
                simp only [Option.getD_some] at hw
                subst hw
                rcases List.mem_cons.1 ha with ha | ha
                · cases ha; rfl
                · exact h3 a s1 b rfl ha
            · rintro ⟨h1, h2, h3⟩
              refine ⟨fun h => h1 (by simp [h]), fun a s1 b s2 ha hb => h2 a s1 b s2 (by simp [ha]) (by simp [hb]), ?_⟩
              rintro a s1 b hb ha
              cases hb
              exact h2 a s1 m s (by simp [ha]) (by simp)
          · constructor
            · rintro ⟨r, hr⟩
              simp [pspecs, hw] at hr
            · rintro ⟨_, _, h3⟩
              cases ex with
              | none => exact absurd rfl hw
              | some m' => exact absurd (h3 m s m' rfl (by simp)).symm hw
  obtain ⟨g1, g2⟩ := gen ls none
  refine ⟨g1, ?_⟩
  rw [g2]
  simp

/-! ## Meshes in use -/

/-- What a program sees, with the mesh in use as a parameter and no stack: `Sees cur init p raised init' seen`. -/
inductive Sees {M : Type} : Option M → Bool → Prog M → Bool → Bool → List (Option M) → Prop
  | look (cur init) : Sees cur init .look false init [cur]
  | raise (cur init) : Sees cur init .raise true init []
  | setInit (cur init b) : Sees cur init (.setInit b) false b []
  | seqRaise {cur init p q i1 s1} : Sees cur init p true i1 s1 → Sees cur init (.seq p q) true i1 s1
  | seq {cur init p q i1 s1 r i2 s2} : Sees cur init p false i1 s1 → Sees cur i1 q r i2 s2 →
      Sees cur init (.seq p q) r i2 (s1 ++ s2)
  | catching {cur init p r i1 s1} : Sees cur init p r i1 s1 → Sees cur init (.catching p) false i1 s1
  | inside {cur mesh p r i1 s1} : Sees (some mesh) true p r i1 s1 → Sees cur true (.enable (some mesh) p) r i1 s1
  | uninitialized {cur mesh p r i1 s1} : Sees cur false p r i1 s1 → Sees cur false (.enable mesh p) r i1 s1
  | without {cur init p r i1 s1} : Sees cur init p r i1 s1 → Sees cur init (.enable none p) r i1 s1

/-- C131: inside of the context the mesh in use is the one enabled there; afterwards it is the one before,
also if the program raises, or DTensor is shut down inside. -/
theorem C131_scoped {M : Type} (p : Prog M) (s : St M) :
    (run p s).2.stack = s.stack ∧
    ∃ seen, (run p s).2.seen = s.seen ++ seen ∧ Sees s.stack.head? s.init p (run p s).1 (run p s).2.init seen := by
  induction p generalizing s with
  | look => exact ⟨rfl, _, rfl, .look _ _⟩
  | raise => exact ⟨rfl, [], by simp [run], .raise _ _⟩
  | setInit b => exact ⟨rfl, [], by simp [run], .setInit _ _ _⟩
  | seq p q ihp ihq =>
    obtain ⟨a1, sp, a2, a3⟩ := ihp s
    by_cases hr : (run p s).1 = true
    · have : run (.seq p q) s = run p s := by simp [run, hr]
      rw [this]
      rw [hr] at a3 ⊢
      exact ⟨a1, sp, a2, .seqRaise a3⟩
    · have : run (.seq p q) s = run q (run p s).2 := by simp [run, hr]
      rw [this]
      obtain ⟨b1, sq, b2, b3⟩ := ihq (run p s).2
      simp only [Bool.not_eq_true] at hr
      rw [hr] at a3
      rw [a1] at b3
      exact ⟨b1.trans a1, sp ++ sq, by rw [b2, a2, List.append_assoc], .seq a3 b3⟩
  | catching p ih =>
    obtain ⟨a1, sp, a2, a3⟩ := ih s
    exact ⟨a1, sp, a2, .catching a3⟩
  | enable mesh p ih =>
    obtain ⟨stack, init, seen⟩ := s
    cases init with
    | false =>
      obtain ⟨a1, sp, a2, a3⟩ := ih ⟨stack, false, seen⟩
      exact ⟨a1, sp, a2, .uninitialized a3⟩
    | true =>
      cases mesh with
      | none =>
        obtain ⟨a1, sp, a2, a3⟩ := ih ⟨stack, true, seen⟩
        exact ⟨a1, sp, a2, .without a3⟩
      | some mesh =>
        obtain ⟨a1, sp, a2, a3⟩ := ih ⟨mesh :: stack, true, seen⟩
        refine ⟨?_, sp, a2, .inside a3⟩
        show (run p ⟨mesh :: stack, true, seen⟩).2.stack.tail = stack
        rw [a1]
        rfl

/-! ## Findings -/

/-- C131 (finding): enabling no mesh inside of another context does not disable the export with that mesh. -/
theorem C131_none_fails {M : Type} (mesh : M) :
    (run (.enable (some mesh) (.enable none .look)) { stack := [], init := true, seen := [] }).2.seen = [some mesh] := rfl

/-- C131 (finding): allowing consolidation is not enough: without the mesh of JAX, which is optional, every
spec that needs it raises. -/
theorem C131_mesh_fails (m : Mesh) (shape : List Nat) (spec : List Entry) (hv : ValidSpec m shape spec)
    (hp : ∃ e ∈ spec, ProductSharded m e) : convert m false true shape spec = .error .noMesh := by
  obtain ⟨_, l2⟩ := layout_accepts (allow := true) hv
  obtain ⟨lay, hl⟩ := l2 hp
  simp only [convert, hl]
  rfl

/-- C131 (finding): an axis whose name is empty is taken for none: the pieces of the array are packed as
if each were the whole, without an error. -/
theorem C131_empty_name_fails :
    convert [("", 2)] true false [4] [.axis ""] = .ok ⟨[none], [.axis ""]⟩ ∧
    ∃ c, Device [("", 2)] c ∧ Held [("", 2)] c 4 (specAxes [.axis ""] 0) ≠ Held [("", 2)] c 4 (layoutAxes [none] 0) := by
  refine ⟨rfl, fun a => if a = "" then 1 else 0, ?_, by decide⟩
  intro a
  unfold sizeOf
  by_cases h : a = ""
  · subst h; decide
  · have h' : (a == "") = false := by simp [h]
    simp [List.lookup, h', h]

/-! ## The hypotheses are met -/

/-- A mesh with an axis of size one, and arrays sharded over it and another, over two that matter, and not. -/
theorem C131_nonvacuous :
    let m : Mesh := [("x", 2), ("y", 1), ("z", 4)]
    ValidSpec m [8, 3, 5] [.axes ["y", "x"], .none] ∧
    convert m false false [8, 3, 5] [.axes ["y", "x"], .none] = .ok ⟨[some "x", none, none], [.axes ["y", "x"], .none]⟩ ∧
    ProductSharded m (.axes ["x", "z"]) ∧
    convert m true true [8, 3] [.axes ["x", "z"]] = .ok ⟨[some "z", none], [.axis "z", .none]⟩ ∧
    convert m true false [8, 3] [.axes ["x", "z"]] = .error .value ∧
    Device m (fun a => if a = "z" then 3 else 0) := by
  refine ⟨⟨by decide, by decide, ?_, ?_⟩, rfl, (show 2 ≤ _ by decide), rfl, rfl, ?_⟩
  · intro e he a ha
    simp only [List.mem_cons, List.not_mem_nil, or_false] at he
    rcases he with rfl | rfl
    · simp [axesOf] at ha
      rcases ha with rfl | rfl
      · exact ⟨1, rfl⟩
      · exact ⟨2, rfl⟩
    · simp [axesOf] at ha
  · intro d n e h1 h2
    match d with
    | 0 => simp at h1 h2; subst h1; subst h2; rfl
    | 1 => simp at h1 h2; subst h1; subst h2; rfl
    | d + 2 => simp at h2
  · intro a
    unfold sizeOf
    by_cases h : a = "z"
    · subst h; decide
    · simp only [List.lookup, h, if_false]
      repeat' split
      all_goals simp

end Verif.Export.DTensor
