import Verif.Arrays.Slices

/-!
# Properties of index normalisation (C39)

An index is judged by the positions it selects (`selected`, `selectsNd`), in order.
-/

namespace Verif.Arrays.Slices

/-- The step of the slice is positive (or left out). -/
def Forward (s : Slice) : Prop := 0 < s.step.getD 1

/-- The index has no `None` in it. -/
def Concrete (s : Slice) : Prop := ∃ a b c, s = mk a b c

/-- An element of an index that `resolve_slice` handles: a forward slice, or an integer in range other than
`-1`. -/
def Good (n : Nat) : Item → Prop
  | .slice s => Forward s
  | .int x => -n ≤ x ∧ x < n ∧ x ≠ -1

/-! ### Lemmas -/

theorem adjust_range {n : Nat} {x : Int} : 0 ≤ adjust n 0 n x ∧ adjust n 0 n x ≤ n := by
  unfold adjust; split <;> split <;> omega

theorem indices_forward {s : Slice} (h : Forward s) (n : Nat) : ∃ a b,
    indices s n = some (a, b, s.step.getD 1) ∧ 0 ≤ a ∧ a ≤ n ∧ 0 ≤ b ∧ b ≤ n ∧
    a = (match s.start with | none => 0 | some x => adjust n 0 n x) ∧
    b = (match s.stop with | none => (n : Int) | some x => adjust n 0 n x) := by
  unfold Forward at h
  have h0 : ¬ s.step.getD 1 = 0 := by omega
  have h1 : ¬ s.step.getD 1 < 0 := by omega
  refine ⟨(match s.start with | none => 0 | some x => adjust n 0 n x),
    (match s.stop with | none => (n : Int) | some x => adjust n 0 n x), ?_, ?_⟩
  · cases hs : s.start <;> cases ht : s.stop <;> simp only [indices, h0, h1, if_false, hs, ht]
  · refine ⟨?_, ?_, ?_, ?_, rfl, rfl⟩ <;> split <;> first | omega | exact adjust_range.1 | exact adjust_range.2

theorem indices_mk_pos {n : Nat} {a b c : Int} (hc : 0 < c) :
    indices (mk a b c) n = some (adjust n 0 n a, adjust n 0 n b, c) := by
  have h0 : ¬ c = 0 := by omega
  have h1 : ¬ c < 0 := by omega
  simp only [indices, mk, Option.getD_some, h0, h1, if_false]

theorem indices_mk_neg {n : Nat} {a b c : Int} (hc : c < 0) :
    indices (mk a b c) n = some (adjust n (-1) (n - 1) a, adjust n (-1) (n - 1) b, c) := by
  have h0 : ¬ c = 0 := by omega
  simp only [indices, mk, Option.getD_some, h0, hc, if_false, if_true]

theorem indices_resolved {n : Nat} {a b c : Int} (hc : 0 < c) (ha : 0 ≤ a) (ha' : a ≤ n) (hb : 0 ≤ b) (hb' : b ≤ n) :
    indices (mk a b c) n = some (a, b, c) := by
  have h0 : ¬ c = 0 := by omega
  have h1 : ¬ c < 0 := by omega
  simp only [indices, mk, Option.getD_some, h0, h1, if_false, adjust]
  rw [if_neg (by omega), if_neg (by omega), if_neg (by omega), if_neg (by omega)]

theorem resolve1_forward {s : Slice} (h : Forward s) (n : Nat) : ∃ a b,
    resolve1 (.slice s) n = some (mk a b (s.step.getD 1)) ∧ 0 ≤ a ∧ a ≤ n ∧ 0 ≤ b ∧ b ≤ n ∧
    selected (mk a b (s.step.getD 1)) n = selected s n := by
  obtain ⟨a, b, e, h1, h2, h3, h4, -⟩ := indices_forward h n
  refine ⟨a, b, by simp [resolve1, e], h1, h2, h3, h4, ?_⟩
  simp only [selected]
  rw [indices_resolved h h1 h2 h3 h4, e]

theorem pyRange_one (a : Int) : pyRange a (a + 1) 1 = [a] := by
  have : rangeLen a (a + 1) 1 = 1 := by
    unfold rangeLen
    rw [if_pos (by decide), if_pos (by omega)]
    have : a + 1 - a - 1 = 0 := by omega
    rw [this]; rfl
  rw [pyRange, this]
  simp [List.range_succ]

theorem pyRange_empty {a b c : Int} (hc : 0 < c) (h : b ≤ a) : pyRange a b c = [] := by
  have : rangeLen a b c = 0 := by
    unfold rangeLen
    rw [if_pos hc, if_neg (by omega)]
  rw [pyRange, this]; rfl

theorem selected_int {n : Nat} {x : Int} (h : Good n (.int x)) :
    selected (mk x (x + 1) 1) n = selects (.int x) n := by
  obtain ⟨h1, h2, h3⟩ := h
  have e0 : ¬ (1 : Int) = 0 := by decide
  have e1 : ¬ (1 : Int) < 0 := by decide
  simp only [selected, selects, indices, mk, Option.getD_some, e0, e1, if_false, Option.map_some]
  by_cases hx : 0 ≤ x
  · rw [if_pos ⟨hx, h2⟩]
    have : adjust n 0 n x = x := by unfold adjust; rw [if_neg (by omega), if_neg (by omega)]
    rw [this]
    have : adjust n 0 n (x + 1) = x + 1 := by unfold adjust; rw [if_neg (by omega), if_neg (by omega)]
    rw [this, pyRange_one]
  · rw [if_neg (by omega), if_pos (by omega)]
    have : adjust n 0 n x = x + n := by unfold adjust; rw [if_pos (by omega), if_neg (by omega)]
    rw [this]
    have : adjust n 0 n (x + 1) = x + n + 1 := by unfold adjust; rw [if_pos (by omega), if_neg (by omega)]; omega
    rw [this, pyRange_one]

theorem resolve1_good {x : Item} {n : Nat} (h : Good n x) : ∃ s, resolve1 x n = some s ∧ Concrete s ∧
    selects (.slice s) n = selects x n := by
  cases x with
  | slice s =>
    obtain ⟨a, b, e, -, -, -, -, hs⟩ := resolve1_forward h n
    exact ⟨_, e, ⟨_, _, _, rfl⟩, hs⟩
  | int x => exact ⟨_, rfl, ⟨_, _, _, rfl⟩, selected_int h⟩

/-! ### C39: `resolve_slice` -/

/-- C39: for every index of forward slices and integers in range other than `-1`, of at most the rank of the
shape, `resolve_slice` succeeds, its result contains no `None`, has as many elements, and selects exactly the
same positions along every axis, in the same order. -/
theorem C39_resolve_same (xs : List Item) (shape : List Nat) (hl : xs.length ≤ shape.length)
    (h : ∀ (i : Nat) (x : Item) (n : Nat), xs[i]? = some x → shape[i]? = some n → Good n x) :
    ∃ r, resolve xs shape = some r ∧ r.length = xs.length ∧ (∀ s ∈ r, Concrete s) ∧
      selectsNd (r.map .slice) shape = selectsNd xs shape := by
  induction xs generalizing shape with
  | nil =>
    refine ⟨[], ?_, rfl, by simp, rfl⟩
    cases shape <;> rfl
  | cons x xs ih =>
    cases shape with
    | nil => simp at hl
    | cons n shape =>
      obtain ⟨s, e, hc, hs⟩ := resolve1_good (h 0 x n rfl rfl)
      obtain ⟨r, e', hl', hc', hs'⟩ := ih shape (by simpa using hl)
        (fun i y m hy hm => h (i+1) y m (by simpa using hy) (by simpa using hm))
      refine ⟨s :: r, ?_, by simp [hl'], ?_, ?_⟩
      · simp [resolve, e, e']
      · intro t ht
        rcases List.mem_cons.mp ht with rfl | ht
        · exact hc
        · exact hc' t ht
      · simp only [List.map_cons, selectsNd, hs, hs']

/-- C39: resolving is idempotent on forward slices. -/
theorem C39_resolve_idempotent (s : Slice) (h : Forward s) (n : Nat) (r : Slice)
    (hr : resolve1 (.slice s) n = some r) : resolve1 (.slice r) n = some r := by
  obtain ⟨a, b, e, h1, h2, h3, h4, -⟩ := resolve1_forward h n
  rw [hr] at e
  cases e
  simp [resolve1, indices_resolved h h1 h2 h3 h4]

/-- C39: the bounds of a resolved forward slice lie within the axis. -/
theorem C39_resolve_bounds (s : Slice) (h : Forward s) (n : Nat) : ∃ a b,
    resolve1 (.slice s) n = some (mk a b (s.step.getD 1)) ∧ 0 ≤ a ∧ a ≤ n ∧ 0 ≤ b ∧ b ≤ n := by
  obtain ⟨a, b, e, h1, h2, h3, h4, -⟩ := resolve1_forward h n
  exact ⟨a, b, e, h1, h2, h3, h4⟩

/-- C39 fails for backward slices: on any axis with at least one element, `slice(None, None, -k)` selects
some elements and its resolved form selects none. -/
theorem C39_backward_slice_resolves_to_nothing_fails (n : Nat) (hn : 0 < n) (k : Int) (hk : k < 0) :
    (∃ l, selected ⟨none, none, some k⟩ n = some l ∧ l ≠ []) ∧
    ∃ r, resolve1 (.slice ⟨none, none, some k⟩) n = some r ∧ selected r n = some [] := by
  have h0 : ¬ k = 0 := by omega
  have e : indices ⟨none, none, some k⟩ n = some ((n : Int) - 1, -1, k) := by
    simp [indices, h0, hk]
  constructor
  · refine ⟨pyRange ((n : Int) - 1) (-1) k, by simp [selected, e], ?_⟩
    have : 0 < rangeLen ((n : Int) - 1) (-1) k := by
      unfold rangeLen
      rw [if_neg (by omega), if_pos (by omega)]
      have : 0 ≤ ((n : Int) - 1 - -1 - 1) / -k := Int.ediv_nonneg (by omega) (by omega)
      omega
    intro h
    have := congrArg List.length h
    simp [pyRange] at this
    omega
  · refine ⟨mk ((n : Int) - 1) (-1) k, by simp [resolve1, e], ?_⟩
    have e' : indices (mk ((n : Int) - 1) (-1) k) n = some ((n : Int) - 1, (n : Int) - 1, k) := by
      simp only [indices, mk, Option.getD_some, h0, hk, if_false, if_true, adjust]
      rw [if_neg (by omega), if_neg (by omega), if_pos (by omega), if_neg (by omega)]
      simp; omega
    simp only [selected, e', Option.map_some]
    have : rangeLen ((n : Int) - 1) ((n : Int) - 1) k = 0 := by
      unfold rangeLen
      rw [if_neg (by omega), if_neg (by omega)]
    simp [pyRange, this]

/-- C39 fails for the integer `-1`: it selects the last element, its resolved form selects nothing. -/
theorem C39_minus_one_resolves_to_nothing_fails (n : Nat) (hn : 0 < n) :
    selects (.int (-1)) n = some [(n : Int) - 1] ∧
    ∃ r, resolve1 (.int (-1)) n = some r ∧ selected r n = some [] := by
  refine ⟨?_, _, rfl, ?_⟩
  · simp only [selects]
    rw [if_neg (by omega), if_pos (by omega)]
    simp; omega
  · have e : indices (mk (-1) (-1 + 1) 1) n = some ((n : Int) - 1, 0, 1) := by
      rw [indices_mk_pos (by decide)]
      unfold adjust
      rw [if_pos (by decide), if_neg (by omega), if_neg (by decide), if_neg (by omega)]
      simp; omega
    simp only [selected, e, Option.map_some]
    rw [pyRange_empty (by decide) (by omega)]

/-- An index longer than the shape is an error for the array, but `resolve_slice` silently drops the extra
elements. -/
theorem C39_too_long_index_truncated_fails (xs : List Item) (x : Item) :
    selectsNd (x :: xs) [] = none ∧ resolve (x :: xs) [] = some [] := by
  exact ⟨rfl, by simp [resolve]⟩

/-! ### C39: `dissolve_slice` -/

theorem dissolve1_forward {s : Slice} (h : Forward s) (n : Nat) :
    Forward (dissolve1 s n) ∧ indices (dissolve1 s n) n = indices s n := by
  have hst : (dissolve1 s n).step.getD 1 = s.step.getD 1 := by
    simp only [dissolve1]
    split
    · rfl
    · next h' => simp at h'; simp [h']
  have hf : Forward (dissolve1 s n) := by unfold Forward; rw [hst]; exact h
  refine ⟨hf, ?_⟩
  obtain ⟨a, b, e, -, -, -, -, ha, hb⟩ := indices_forward h n
  obtain ⟨a', b', e', -, -, -, -, ha', hb'⟩ := indices_forward hf n
  rw [e, e', hst]
  have h1 : a' = a := by
    rw [ha, ha']
    simp only [dissolve1]
    by_cases hz : s.start = some 0
    · simp [hz, adjust]; omega
    · simp [hz]
  have h2 : b' = b := by
    rw [hb, hb']
    simp only [dissolve1]
    by_cases hz : s.stop = some (n : Int)
    · simp [hz, adjust]; omega
    · simp [hz]
  rw [h1, h2]

theorem selectsNd_append (xs ys : List Item) (shape : List Nat) (hl : xs.length ≤ shape.length) :
    selectsNd (xs ++ ys) shape =
      (do let a ← selectsNd xs (shape.take xs.length)
          let b ← selectsNd ys (shape.drop xs.length)
          return a ++ b) := by
  induction xs generalizing shape with
  | nil =>
    simp [selectsNd]
  | cons x xs ih =>
    cases shape with
    | nil => simp at hl
    | cons n shape =>
      simp only [List.cons_append, selectsNd, List.length_cons, List.take_succ_cons, List.drop_succ_cons]
      rw [ih shape (by simpa using hl)]
      cases selects x n <;> simp [Option.bind_assoc]

theorem selected_full (n : Nat) : selected full n = some (pyRange 0 n 1) := by
  have : indices full n = some (0, (n : Int), 1) := by simp [indices, full]
  simp [selected, this]

theorem selectsNd_full : ∀ (l : List Slice) (shape : List Nat), (∀ s ∈ l, s = full) → l.length ≤ shape.length →
    selectsNd (l.map .slice) shape = selectsNd [] shape
  | [], _, _, _ => rfl
  | s :: l, [], _, hl => by simp at hl
  | s :: l, n :: shape, h, hl => by
    have hs := h s (by simp)
    subst hs
    have ih := selectsNd_full l shape (fun t ht => h t (by simp [ht])) (by simpa using hl)
    simp only [List.map_cons, selectsNd, selects, selected_full, ih]
    rfl

theorem selectsNd_take (xs : List Item) (shape : List Nat) (hl : xs.length ≤ shape.length) :
    selectsNd xs shape = (do let a ← selectsNd xs (shape.take xs.length)
                             let b ← selectsNd [] (shape.drop xs.length)
                             return a ++ b) := by
  have := selectsNd_append xs [] shape hl
  simpa using this

theorem trimFull_split (l : List Slice) : ∃ t, l = trimFull l ++ t ∧ ∀ s ∈ t, s = full := by
  refine ⟨(l.reverse.takeWhile (· == full)).reverse, ?_, ?_⟩
  · have := List.takeWhile_append_dropWhile (p := (· == full)) (l := l.reverse)
    have := congrArg List.reverse this
    simp only [List.reverse_append, List.reverse_reverse] at this
    exact this.symm
  · intro s hs
    have hs := List.mem_reverse.mp hs
    have : ∀ (l : List Slice), ∀ s ∈ l.takeWhile (· == full), s = full := by
      intro l
      induction l with
      | nil => simp
      | cons a l ih =>
        intro s hs
        rw [List.takeWhile_cons] at hs
        split at hs
        · next ha =>
          rcases List.mem_cons.mp hs with rfl | hs
          · simpa using ha
          · exact ih s hs
        · simp at hs
    exact this _ s hs

theorem selectsNd_trim (l : List Slice) (shape : List Nat) (hl : l.length ≤ shape.length) :
    selectsNd ((trimFull l).map .slice) shape = selectsNd (l.map .slice) shape := by
  obtain ⟨t, e, ht⟩ := trimFull_split l
  have hlen : l.length = (trimFull l).length + t.length := by
    have := congrArg List.length e; simpa using this
  have h1 : ((trimFull l).map Item.slice).length ≤ shape.length := by simp; omega
  conv => rhs; rw [e]
  rw [List.map_append, selectsNd_append _ _ _ h1]
  rw [selectsNd_full t _ ht (by simp; omega)]
  exact selectsNd_take _ _ h1

/-- C39: `dissolve_slice` selects the same positions, in the same order, for every index of forward slices of
at most the rank of the shape, with and without `preserve_rank`. -/
theorem C39_dissolve_same (xs : List Slice) (shape : List Nat) (hl : xs.length ≤ shape.length)
    (h : ∀ s ∈ xs, Forward s) (preserveRank : Bool) :
    selectsNd ((dissolve xs shape preserveRank).map .slice) shape = selectsNd (xs.map .slice) shape ∧
    (preserveRank = true → (dissolve xs shape preserveRank).length = xs.length) := by
  have key : ∀ (xs : List Slice) (shape : List Nat), xs.length ≤ shape.length → (∀ s ∈ xs, Forward s) →
      selectsNd ((List.zipWith dissolve1 xs shape).map .slice) shape = selectsNd (xs.map .slice) shape := by
    intro xs
    induction xs with
    | nil => intros; rfl
    | cons s xs ih =>
      intro shape hl h
      cases shape with
      | nil => simp at hl
      | cons n shape =>
        have ih := ih shape (by simpa using hl) (fun t ht => h t (by simp [ht]))
        have hs := (dissolve1_forward (h s (by simp)) n).2
        simp only [List.zipWith_cons_cons, List.map_cons, selectsNd, ih, selects, selected, hs]
  have hzl : (List.zipWith dissolve1 xs shape).length = xs.length := by simp; omega
  unfold dissolve
  cases preserveRank with
  | true => exact ⟨key xs shape hl h, fun _ => hzl⟩
  | false =>
    refine ⟨?_, by simp⟩
    simp only [Bool.false_eq_true, if_false]
    rw [selectsNd_trim _ _ (by omega)]
    exact key xs shape hl h

/-- C39: resolving undoes dissolving: a resolved forward slice comes back unchanged. -/
theorem C39_resolve_dissolve (s : Slice) (h : Forward s) (n : Nat) (r : Slice)
    (hr : resolve1 (.slice s) n = some r) : resolve1 (.slice (dissolve1 r n)) n = some r := by
  obtain ⟨a, b, e, h1, h2, h3, h4, -⟩ := resolve1_forward h n
  rw [hr] at e
  cases e
  have hf : Forward (mk a b (s.step.getD 1)) := h
  simp only [resolve1, (dissolve1_forward hf n).2, indices_resolved h h1 h2 h3 h4, Option.map_some]

/-- C39: nothing of the form `0:`, `:dim` or `::1` is left after dissolving. -/
theorem C39_dissolve_minimal (s : Slice) (n : Nat) :
    (dissolve1 s n).start ≠ some 0 ∧ (dissolve1 s n).stop ≠ some (n : Int) ∧ (dissolve1 s n).step ≠ some 1 := by
  simp only [dissolve1]
  refine ⟨?_, ?_, ?_⟩
  · split <;> simp_all
  · split <;> simp_all
  · split <;> simp_all

/-- C39 fails for backward slices: `slice(0, -n-1, -1)` selects the first element, its dissolved form the
whole axis, backwards. -/
theorem C39_dissolve_backward_fails (n : Nat) (hn : 1 < n) :
    ∃ s : Slice, selected s n = some [0] ∧ ∃ l, selected (dissolve1 s n) n = some l ∧ l.length = n := by
  refine ⟨mk 0 (-n - 1) (-1), ?_, ?_⟩
  · have e : indices (mk 0 (-n - 1) (-1)) n = some (0, -1, -1) := by
      rw [indices_mk_neg (by decide)]
      have h1 : adjust n (-1) (n - 1) 0 = 0 := by unfold adjust; repeat' split
                                                  all_goals omega
      have h2 : adjust n (-1) (n - 1) (-n - 1) = -1 := by unfold adjust; repeat' split
                                                          all_goals omega
      rw [h1, h2]
    simp only [selected, e]
    decide
  · have e : indices (dissolve1 (mk 0 (-n - 1) (-1)) n) n = some ((n : Int) - 1, -1, -1) := by
      have : ¬ (-(n : Int) - 1 = n) := by omega
      simp only [dissolve1, mk, indices, if_true]
      simp only [Option.some.injEq, this, ne_eq, not_false_eq_true, if_true, adjust]
      simp; omega
    refine ⟨pyRange ((n : Int) - 1) (-1) (-1), by simp [selected, e], ?_⟩
    simp only [pyRange, rangeLen, List.length_map, List.length_range]
    rw [if_neg (by decide), if_pos (by omega)]
    have : (n : Int) - 1 - -1 - 1 = n - 1 := by omega
    rw [this]
    simp

/-! ### C39: `normalize_slice` -/

/-- C39: within its documented precondition (bounds at least `-dim`) `normalize_slice` selects the same
positions in the same order, for every step, and its bounds are non-negative. -/
theorem C39_normalize_same (a b c : Int) (n : Nat) (ha : -n ≤ a) (hb : -n ≤ b) :
    selected (normalize1 a b c n) n = selected (mk a b c) n ∧
    ∃ a' b', normalize1 a b c n = mk a' b' c ∧ 0 ≤ a' ∧ 0 ≤ b' := by
  have key : ∀ x : Int, -n ≤ x → ∀ lower upper : Int, (lower = 0 ∧ upper = n ∨ lower = -1 ∧ upper = (n : Int) - 1) →
      adjust n lower upper (if x ≥ 0 then x else n + x) = adjust n lower upper x := by
    intro x hx lower upper h
    by_cases h0 : x ≥ 0
    · rw [if_pos h0]
    · rw [if_neg h0]
      unfold adjust
      rcases h with ⟨rfl, rfl⟩ | ⟨rfl, rfl⟩
      · repeat' split
        all_goals omega
      · repeat' split
        all_goals omega
  constructor
  · unfold selected
    congr 1
    by_cases hc : c = 0
    · simp [indices, normalize1, mk, hc]
    · simp only [indices, normalize1, mk, Option.getD_some, hc, if_false]
      by_cases hc' : c < 0
      · simp only [hc', if_true]
        rw [key a ha _ _ (.inr ⟨rfl, rfl⟩), key b hb _ _ (.inr ⟨rfl, rfl⟩)]
      · simp only [hc', if_false]
        rw [key a ha _ _ (.inl ⟨rfl, rfl⟩), key b hb _ _ (.inl ⟨rfl, rfl⟩)]
  · refine ⟨_, _, rfl, ?_, ?_⟩ <;> split <;> omega

/-! ### C39: `slice_shape` -/

/-- C39: for a forward slice whose bounds are in order (as every resolved index of a shard or fragment), the
computed length is the number of positions selected. -/
theorem C39_slice_shape (a b c : Int) (hc : 0 < c) (h : a ≤ b) :
    sliceLen a b c = (pyRange a b c).length := by
  simp only [sliceLen, pyRange, List.length_map, List.length_range, rangeLen, hc, if_true]
  rw [Int.fdiv_eq_ediv_of_nonneg _ (by omega)]
  by_cases hab : a < b
  · rw [if_pos hab]
    have e : b - a + (c - 1) = (b - a - 1) + 1 * c := by omega
    rw [e, Int.add_mul_ediv_right _ _ (by omega)]
    have : 0 ≤ (b - a - 1) / c := Int.ediv_nonneg (by omega) (by omega)
    omega
  · rw [if_neg hab]
    have : b - a + (c - 1) = c - 1 := by omega
    rw [this, Int.ediv_eq_zero_of_lt (by omega) (by omega)]
    rfl

/-- C39 fails when the bounds are out of order: the slice selects nothing and the computed length is
negative. -/
theorem C39_slice_shape_negative_fails (a : Int) :
    pyRange a (a - 1) 1 = [] ∧ sliceLen a (a - 1) 1 = -1 := by
  refine ⟨pyRange_empty (by decide) (by omega), ?_⟩
  have : a - 1 - a + (1 - 1) = -1 := by omega
  rw [sliceLen, this]; rfl

/-- C39 fails for backward slices: the length computed for `slice(n, 0, -1)`, which selects `n` positions, is
`n + 2`. -/
theorem C39_slice_shape_backward_fails (n : Nat) :
    (pyRange n 0 (-1)).length = n ∧ sliceLen n 0 (-1) = n + 2 := by
  constructor
  · simp only [pyRange, rangeLen, List.length_map, List.length_range]
    rw [if_neg (by decide)]
    split
    · simp
    · omega
  · have : 0 - (n : Int) + (-1 - 1) = -(n + 2 : Int) := by omega
    rw [sliceLen, this]
    simp [Int.fdiv_neg]

/-! ### C39: hashable indices -/

theorem intTuple_mk {a b c : Int} (hc : c ≠ 0) : intTuple (mk a b c) = some (a, b, c) := by
  simp [intTuple, mk, hc]

/-- C39: converting an index to its hashable form and back gives the resolved index, for every non-empty
shape and every index that can be resolved. -/
theorem C39_hashable_roundtrip (xs : List Item) (shape : List Nat) (hs : shape ≠ []) (r : List Slice)
    (hr : resolve xs shape = some r) : (toHashable xs shape).map fromHashable = some r := by
  have key : ∀ (xs : List Item) (shape : List Nat) (r : List Slice), resolve xs shape = some r →
      (r.mapM intTuple).map fromHashable = some r := by
    intro xs
    induction xs with
    | nil => 
      intro shape r h
      cases shape <;> cases h <;> rfl
    | cons x xs ih =>
      intro shape r h
      cases shape with
      | nil => cases h; rfl
      | cons n shape =>
        simp only [resolve] at h
        rcases Option.eq_none_or_eq_some (resolve1 x n) with h1 | ⟨s, h1⟩
        · simp [h1] at h
        · rcases Option.eq_none_or_eq_some (resolve xs shape) with h2 | ⟨r', h2⟩
          · simp [h1, h2] at h
          · simp [h1, h2] at h
            subst h
            have hi := ih shape r' h2
            have hs : ∃ a b c, s = mk a b c ∧ c ≠ 0 := by
              cases x with
              | int x => cases h1; exact ⟨_, _, _, rfl, by decide⟩
              | slice t =>
                simp only [resolve1, Option.map_eq_some_iff] at h1
                obtain ⟨⟨a, b, c⟩, h3, rfl⟩ := h1
                refine ⟨a, b, c, rfl, ?_⟩
                simp only [indices] at h3
                split at h3
                · cases h3
                · next h0 => cases h3; exact h0
            obtain ⟨a, b, c, rfl, hc⟩ := hs
            rw [List.mapM_cons, intTuple_mk hc]
            simp only [Option.map_eq_some_iff] at hi
            obtain ⟨l, h4, h5⟩ := hi
            rw [h4]
            simp only [Option.pure_def, Option.bind_eq_bind, Option.bind_some, Option.map_some, fromHashable, List.map_cons]
            rw [← h5]; rfl
  simp only [toHashable, hs, if_false]
  rw [hr]
  exact key xs shape r hr

/-- C39: two indices with the same hashable form select the same positions (so counting or de-duplicating
shards by it merges only equal ones). -/
theorem C39_hashable_same_selection (xs ys : List Item) (shape : List Nat) (hs : shape ≠ [])
    (hlx : xs.length ≤ shape.length) (hly : ys.length ≤ shape.length)
    (hx : ∀ (i : Nat) (x : Item) (n : Nat), xs[i]? = some x → shape[i]? = some n → Good n x)
    (hy : ∀ (i : Nat) (x : Item) (n : Nat), ys[i]? = some x → shape[i]? = some n → Good n x)
    (h : toHashable xs shape = toHashable ys shape) : selectsNd xs shape = selectsNd ys shape := by
  obtain ⟨r, e, -, -, h1⟩ := C39_resolve_same xs shape hlx hx
  obtain ⟨r', e', -, -, h2⟩ := C39_resolve_same ys shape hly hy
  have h3 := C39_hashable_roundtrip xs shape hs r e
  have h4 := C39_hashable_roundtrip ys shape hs r' e'
  rw [h, h4] at h3
  cases h3
  rw [← h1, ← h2]

/-! Non-vacuity. -/

example : selectsNd [.slice ⟨none, some (-1), some 2⟩, .int (-2)] [6, 4, 2] = some [[0, 2, 4], [2], [0, 1]] := by
  decide
example : resolve [.slice ⟨none, some (-1), some 2⟩, .int (-2)] [6, 4, 2] = some [mk 0 5 2, mk (-2) (-1) 1] := by
  decide
example : dissolve [mk 0 5 2, mk 0 4 1, mk 0 2 1] [6, 4, 2] false = [⟨none, some 5, some 2⟩] := by decide
example : Good 4 (.int (-2)) ∧ Forward ⟨none, some (-1), some 2⟩ := by
  refine ⟨?_, ?_⟩
  · simp [Good]
  · simp [Forward]
example : toHashable [.slice ⟨none, none, none⟩] [3] = toHashable [.slice ⟨some 0, some 7, some 1⟩] [3] := by decide

end Verif.Arrays.Slices
