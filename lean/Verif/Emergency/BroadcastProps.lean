import Verif.Emergency.Broadcast

/-!
# What broadcasting guarantees (C75)
-/
namespace Verif.Emergency.Broadcast

variable {α : Type}

theorem takeFitting_append (size : α → Nat) (limit : Int) (mem : Nat) (l : List α) :
    (takeFitting size limit mem l).1 ++ (takeFitting size limit mem l).2 = l := by
  induction l generalizing mem with
  | nil => simp [takeFitting]
  | cons x xs ih =>
    rw [takeFitting]
    split
    · simp [ih]
    · simp

theorem takeFitting_fits (size : α → Nat) (limit : Int) (mem : Nat) (l : List α)
    (hm : (mem : Int) ≤ limit) :
    ((mem + ((takeFitting size limit mem l).1.map size).sum : Nat) : Int) ≤ limit := by
  induction l generalizing mem with
  | nil => simpa [takeFitting] using hm
  | cons x xs ih =>
    rw [takeFitting]
    split
    · rename_i h
      have := ih (mem + size x) h
      simp only [List.map_cons, List.sum_cons]
      omega
    · simpa using hm

theorem takeFitting_next (size : α → Nat) (limit : Int) (mem : Nat) (l : List α) (y : α)
    (ys : List α) (h : (takeFitting size limit mem l).2 = y :: ys) :
    limit < ((mem + ((takeFitting size limit mem l).1.map size).sum + size y : Nat) : Int) := by
  induction l generalizing mem with
  | nil => simp [takeFitting] at h
  | cons x xs ih =>
    rw [takeFitting] at h ⊢
    split at h
    · rename_i hx
      rw [if_pos hx]
      have := ih (mem + size x) h
      simp only [List.map_cons, List.sum_cons]
      omega
    · rename_i hx
      rw [if_neg hx]
      simp only [List.cons.injEq] at h
      obtain ⟨rfl, -⟩ := h
      simp only [List.map_nil, List.sum_nil]
      omega

theorem batches_ind (size : α → Nat) (limit : Int) (P : List α → List (List α) → Prop)
    (h0 : P [] [])
    (h1 : ∀ x xs, limit < (size x : Int) → P xs (batches size limit xs) →
      P (x :: xs) ([x] :: batches size limit xs))
    (h2 : ∀ x xs, (size x : Int) ≤ limit →
      P (takeFitting size limit (size x) xs).2
        (batches size limit (takeFitting size limit (size x) xs).2) →
      P (x :: xs) ((x :: (takeFitting size limit (size x) xs).1) ::
        batches size limit (takeFitting size limit (size x) xs).2)) :
    ∀ l, P l (batches size limit l) := by
  intro l
  generalize hn : l.length = n
  induction n using Nat.strongRecOn generalizing l with
  | ind n ih =>
    cases l with
    | nil => rw [batches]; exact h0
    | cons x xs =>
      rw [batches]
      split
      · rename_i h
        exact h1 x xs h (ih xs.length (by rw [← hn]; simp) xs rfl)
      · rename_i h
        refine h2 x xs (by omega) (ih _ ?_ _ rfl)
        have := takeFitting_length size limit (size x) xs
        rw [← hn, List.length_cons]; omega

/-- C75: for every memory limit (even a negative one) the broadcasts cover the leaves exactly once and
in order, and none is empty. -/
theorem C75_batches_partition (size : α → Nat) (limit : Int) (leaves : List α) :
    (batches size limit leaves).flatten = leaves ∧ ∀ b ∈ batches size limit leaves, b ≠ [] := by
  refine batches_ind size limit (fun l bs => bs.flatten = l ∧ ∀ b ∈ bs, b ≠ []) ?_ ?_ ?_ leaves
  · simp
  · rintro x xs - ⟨h1, h2⟩
    refine ⟨by simp [h1], ?_⟩
    intro b hb
    rcases List.mem_cons.1 hb with rfl | hb
    · simp
    · exact h2 b hb
  · rintro x xs - ⟨h1, h2⟩
    refine ⟨?_, ?_⟩
    · rw [List.flatten_cons, h1, List.cons_append, takeFitting_append]
    · intro b hb
      rcases List.mem_cons.1 hb with rfl | hb
      · simp
      · exact h2 b hb

/-- C75: a broadcast exceeds the memory limit only if it consists of a single leaf that exceeds it. -/
theorem C75_batches_limit (size : α → Nat) (limit : Int) (leaves : List α) :
    ∀ b ∈ batches size limit leaves,
      (((b.map size).sum : Nat) : Int) ≤ limit ∨ ∃ x, b = [x] ∧ limit < (size x : Int) := by
  refine batches_ind size limit (fun _ bs => ∀ b ∈ bs,
      (((b.map size).sum : Nat) : Int) ≤ limit ∨ ∃ x, b = [x] ∧ limit < (size x : Int))
      ?_ ?_ ?_ leaves
  · simp
  · intro x xs hx ih b hb
    rcases List.mem_cons.1 hb with rfl | hb
    · exact Or.inr ⟨x, rfl, hx⟩
    · exact ih b hb
  · intro x xs hx ih b hb
    rcases List.mem_cons.1 hb with rfl | hb
    · left
      have := takeFitting_fits size limit (size x) xs hx
      simpa using this
    · exact ih b hb

/-- C75: broadcasts are not split without need: a broadcast and the first leaf of the next one do not
fit together. -/
theorem C75_batches_full (size : α → Nat) (limit : Int) (leaves : List α) (i : Nat) (a b : List α)
    (y : α) (ha : (batches size limit leaves)[i]? = some a)
    (hb : (batches size limit leaves)[i + 1]? = some (y :: b)) :
    limit < (((a.map size).sum + size y : Nat) : Int) := by
  suffices h : ∀ l, ∀ i a y b, (batches size limit l)[i]? = some a →
      (batches size limit l)[i + 1]? = some (y :: b) →
      limit < (((a.map size).sum + size y : Nat) : Int) from h leaves i a y b ha hb
  have hhead : ∀ (l : List α) y b, (batches size limit l)[0]? = some (y :: b) →
      ∃ t, l = y :: t := by
    intro l y b h
    have := (C75_batches_partition size limit l).1
    cases hbs : batches size limit l with
    | nil => rw [hbs] at h; simp at h
    | cons c cs =>
      rw [hbs] at h this
      simp only [List.getElem?_cons_zero, Option.some.injEq] at h
      rw [h] at this
      exact ⟨b ++ cs.flatten, by rw [← this]; simp⟩
  refine batches_ind size limit (fun _ bs => ∀ (i : Nat) a y b, bs[i]? = some a →
      bs[i + 1]? = some (y :: b) → limit < (((a.map size).sum + size y : Nat) : Int)) ?_ ?_ ?_
  · intro i a y b h; simp at h
  · intro x xs hx ih i a y b h1 h2
    cases i with
    | zero =>
      simp only [List.getElem?_cons_zero, Option.some.injEq] at h1
      subst h1
      simp only [List.map_cons, List.map_nil, List.sum_cons, List.sum_nil]
      omega
    | succ i =>
      rw [List.getElem?_cons_succ] at h1 h2
      exact ih i a y b h1 h2
  · intro x xs hx ih i a y b h1 h2
    cases i with
    | zero =>
      simp only [List.getElem?_cons_zero, Option.some.injEq] at h1
      rw [List.getElem?_cons_succ] at h2
      obtain ⟨t, ht⟩ := hhead _ y b h2
      have := takeFitting_next size limit (size x) xs y t ht
      subst h1
      simpa using this
    | succ i =>
      rw [List.getElem?_cons_succ] at h1 h2
      exact ih i a y b h1 h2

/-- C75 (finding): the memory limit is taken from each host's own device memory, so hosts with
different memories group the same leaves differently, and their collective operations do not match. -/
theorem C75_limits_differ_fails :
    ∃ (sizes : List Nat) (limit limit' : Int),
      (batches id limit sizes).length = 1 ∧ (batches id limit' sizes).length = 2 := by
  refine ⟨[3, 3], 6, 5, ?_, ?_⟩ <;> simp [batches, takeFitting]

/-! ## The values -/

theorem foldl_zeros {M : Type} (add : M → M → M) (zero : M) (hr : ∀ x, add x zero = x)
    (l : List M) (h : ∀ x ∈ l, x = zero) (a : M) : l.foldl add a = a := by
  induction l generalizing a with
  | nil => rfl
  | cons x l ih =>
    rw [List.foldl_cons, h x (by simp), hr]
    exact ih (fun y hy => h y (List.mem_cons_of_mem _ hy)) a

/-- C75: every replica ends up with the source's values, whatever the other replicas held, if zero is
neutral for the addition of the array's elements. -/
theorem C75_broadcast_value {M : Type} (add : M → M → M) (zero : M) (hl : ∀ x, add zero x = x)
    (hr : ∀ x, add x zero = x) (replicas source : Nat) (hs : source < replicas)
    (isSource : Nat → Bool) (hone : ∀ r, r < replicas → (isSource r = true ↔ r = source))
    (value : Nat → M) : merged add zero replicas isSource value = value source := by
  unfold merged
  have hsplit : List.range replicas =
      List.range source ++ source :: (List.range (replicas - source - 1)).map (· + (source + 1)) := by
    apply List.ext_getElem
    · simp; omega
    · intro i h1 h2
      simp only [List.getElem_range]
      by_cases hi : i < source
      · rw [List.getElem_append_left (by simpa using hi)]; simp
      · rw [List.getElem_append_right (by simpa using hi)]
        simp only [List.length_range]
        by_cases he : i = source
        · subst he; simp
        · have : i - source = (i - source - 1) + 1 := by omega
          rw [List.getElem_cons]
          simp only [show i - source ≠ 0 by omega, dite_false, List.getElem_map,
            List.getElem_range]
          omega
  rw [hsplit, List.map_append, List.map_cons, List.foldl_append, List.foldl_cons]
  rw [foldl_zeros add zero hr _ _ zero, if_pos ((hone source hs).2 rfl), hl,
    foldl_zeros add zero hr _ _ (value source)]
  · intro x hx
    obtain ⟨r, hr1, rfl⟩ := List.mem_map.1 hx
    obtain ⟨q, hq, rfl⟩ := List.mem_map.1 hr1
    have := List.mem_range.1 hq
    rw [if_neg]
    intro hc
    have := (hone (q + (source + 1)) (by omega)).1 hc
    omega
  · intro x hx
    obtain ⟨r, hr1, rfl⟩ := List.mem_map.1 hx
    have := List.mem_range.1 hr1
    rw [if_neg]
    intro hc
    have := (hone r (by omega)).1 hc
    omega

/-- C75 (finding): arrays of booleans and of narrow integers come out of a broadcast with another
dtype. -/
theorem C75_dtype_fails : ∀ d, sumDType d ≠ d ↔
    d ∈ [DType.bool, .int8, .int16, .uint8, .uint16] := by
  intro d; cases d <;> decide

/-- Zeros with a sign, as IEEE 754 has them, and one other number. -/
inductive Signed
  | posZero | negZero | one
deriving DecidableEq

/-- IEEE addition on them (rounding to nearest; the sum of two ones is not needed). -/
def Signed.add : Signed → Signed → Signed
  | .negZero, .negZero => .negZero
  | .one, _ => .one
  | _, .one => .one
  | _, _ => .posZero

/-- C75 (finding): zero is not neutral for floating-point addition: a restored `-0.0` becomes
`0.0`. -/
theorem C75_negative_zero_fails (replicas : Nat) (source : Nat) (_hs : source < replicas) :
    merged Signed.add .posZero replicas (fun r => decide (r = source)) (fun _ => .negZero) =
      .posZero := by
  unfold merged
  have : ∀ (l : List Signed), (∀ x ∈ l, x = .posZero ∨ x = .negZero) →
      l.foldl Signed.add .posZero = .posZero := by
    intro l
    induction l with
    | nil => intro _; rfl
    | cons x l ih =>
      intro h
      have hx : Signed.add .posZero x = .posZero := by
        rcases h x (by simp) with rfl | rfl <;> rfl
      rw [List.foldl_cons, hx]
      exact ih (fun y hy => h y (List.mem_cons_of_mem _ hy))
  apply this
  intro x hx
  obtain ⟨r, -, rfl⟩ := List.mem_map.1 hx
  by_cases h : r = source
  · simp [h]
  · simp [h]

/-- C75, non-vacuity: five leaves, one of them too large, and a negative limit. -/
theorem C75_nonvacuous :
    batches id 10 [4, 6, 1, 20, 3] = [[4, 6], [1], [20], [3]] ∧
    batches id (-1) [0, 2] = [[0], [2]] ∧
    merged (· + ·) 0 3 (fun r => decide (r = 1)) (fun r => 10 * r + 5) = 15 := by
  refine ⟨by simp [batches, takeFitting], by simp [batches], by decide⟩

end Verif.Emergency.Broadcast
