import Verif.Memory.Regulator
import Mathlib.Order.Basic
import Mathlib.Algebra.Order.Floor.Ring
import Mathlib.Tactic.Linarith
import Mathlib.Tactic.NormNum
import Mathlib.Tactic.Ring

/-!
# Properties of the memory regulator (C32)
-/

namespace Verif.Memory.Regulator

section generic

variable {α : Type} [LinearOrder α] [Add α] [Sub α] [Mul α] [Neg α] [Zero α]

theorem clamp_bounds (r : Reg α) (h : r.minLimit ≤ r.maxLimit) (x : α) :
    r.minLimit ≤ clamp r x ∧ clamp r x ≤ r.maxLimit :=
  ⟨le_max_left _ _, max_le h (min_le_left _ _)⟩

theorem next_fixed (r : Reg α) (cur : α) (m : Meas α) :
    (next r cur m).2.minLimit = r.minLimit ∧ (next r cur m).2.maxLimit = r.maxLimit ∧
    (next r cur m).2.windup = r.windup := by
  simp only [next, remember]
  split <;> simp

/-- C32: every limit returned lies within `[min, max]`, for every history of calls and measurements and for
every gain, whatever the rounding of the arithmetic. -/
theorem C32_bounds (r : Reg α) (h : r.minLimit ≤ r.maxLimit) (cur : α) (ms : List (Meas α)) :
    ∀ l ∈ (runFrom r cur ms).1, r.minLimit ≤ l ∧ l ≤ r.maxLimit := by
  induction ms generalizing r cur with
  | nil => simp [runFrom]
  | cons m ms ih =>
    intro l hl
    have hf := next_fixed r cur m
    rcases List.mem_cons.mp hl with rfl | hl
    · exact clamp_bounds r h _
    · have := ih (next r cur m).2 (by rw [hf.1, hf.2.1]; exact h) (next r cur m).1 l hl
      rw [hf.1, hf.2.1] at this
      exact this

/-- C32: every limit returned is at least the minimum, and one is returned for each measurement. -/
theorem C32_at_least_min (r : Reg α) (cur : α) (ms : List (Meas α)) :
    (runFrom r cur ms).1.length = ms.length ∧ ∀ l ∈ (runFrom r cur ms).1, r.minLimit ≤ l := by
  induction ms generalizing r cur with
  | nil => simp [runFrom]
  | cons m ms ih =>
    have hf := next_fixed r cur m
    have := ih (next r cur m).2 (next r cur m).1
    rw [hf.1] at this
    refine ⟨by simp [runFrom, this.1], ?_⟩
    intro l hl
    rcases List.mem_cons.mp hl with rfl | hl
    · exact le_max_left _ _
    · exact this.2 l hl

/-- C32: while a surge is reported the history the controller learns from is left alone. -/
theorem C32_history_frozen_during_surge (r : Reg α) (cur : α) (m : Meas α) (h : m.surge ≠ 0) :
    (next r cur m).2.integral = r.integral ∧ (next r cur m).2.prevError = r.prevError := by
  simp [next, remember, h]

/-- C32: the accumulated error never leaves its wind-up bounds. -/
theorem C32_integral_bounded (r : Reg α) (hw : -r.windup ≤ r.windup)
    (hr : -r.windup ≤ r.integral ∧ r.integral ≤ r.windup) (cur : α) (ms : List (Meas α)) :
    -r.windup ≤ (runFrom r cur ms).2.2.integral ∧ (runFrom r cur ms).2.2.integral ≤ r.windup := by
  induction ms generalizing r cur with
  | nil => exact hr
  | cons m ms ih =>
    have hf := (next_fixed r cur m).2.2
    have := ih (next r cur m).2 (by rw [hf]; exact hw) (by
      rw [hf]
      simp only [next, remember]
      split
      · exact ⟨le_max_left _ _, max_le hw (min_le_left _ _)⟩
      · exact hr) (next r cur m).1
    rw [hf] at this
    exact this

end generic

section rational

theorem clamp_mono (r : Reg ℚ) {x y : ℚ} (h : x ≤ y) : clamp r x ≤ clamp r y :=
  max_le_max le_rfl (min_le_min le_rfl h)

theorem clamp_of_mem (r : Reg ℚ) {x : ℚ} (h1 : r.minLimit ≤ x) (h2 : x ≤ r.maxLimit) : clamp r x = x := by
  rw [clamp, min_eq_right h2, max_eq_right h1]

/-- C32: a regulator that passes its own validation, with a target ratio of at most one, keeps every limit
within `[min, max]`. -/
theorem C32_valid_bounds {maxL ratio minL kp ki kd w : ℚ} {r : Reg ℚ}
    (h : mk maxL ratio minL kp ki kd w = some r) (hr : ratio ≤ 1) (cur : ℚ) (ms : List (Meas ℚ)) :
    ∀ l ∈ (runFrom r cur ms).1, minL ≤ l ∧ l ≤ maxL := by
  unfold mk at h
  split at h
  · cases h
  · split at h
    · cases h
    · split at h
      · cases h
      · next h1 h2 h3 =>
        cases h
        apply C32_bounds
        simp only
        have : maxL * ratio ≤ maxL := by nlinarith
        linarith

/-- The target ratio is not validated: with a ratio above one a minimum above the maximum is accepted, and
then every limit returned is above the maximum. -/
theorem C32_ratio_above_one_exceeds_max_fails (maxL : ℚ) (h : 0 < maxL) (kp ki kd w : ℚ) :
    ∃ r, mk maxL 3 (2 * maxL) kp ki kd w = some r ∧
      ∀ cur m, maxL < (next r cur m).1 := by
  refine ⟨⟨maxL, 3, 2 * maxL, kp, ki, kd, 0, 0, 0, w⟩, ?_, ?_⟩
  · unfold mk
    rw [if_neg (by linarith), if_neg (by linarith), if_neg (by linarith)]
  · intro cur m
    refine lt_of_lt_of_le ?_ (le_max_left _ _)
    show maxL < 2 * maxL
    linarith

/-- The limit the regulator would have without the surge it has reserved for. -/
def baseline (r : Reg ℚ) (cur : ℚ) : ℚ := cur + r.prevSurge

/-- C32: while a surge is reported the limit without the surge never grows, and the limit itself is at most
that limit less the surge (or the minimum). -/
theorem C32_surge_never_raises (r : Reg ℚ) (cur : ℚ) (m : Meas ℚ) (hs : m.surge > 0) :
    (next r cur m).1 ≤ max r.minLimit (baseline r cur - m.surge) ∧
    baseline (next r cur m).2 (next r cur m).1 ≤ max r.minLimit (baseline r cur) ∧
    (next r cur m).1 ≤ baseline (next r cur m).2 (next r cur m).1 := by
  have ha : adjustment r m ≤ 0 := by simp only [adjustment]; rw [if_pos hs]; exact min_le_left _ _
  refine ⟨?_, ?_, ?_⟩
  · simp only [next, clamp, baseline]
    exact max_le_max le_rfl (le_trans (min_le_right _ _) (by linarith))
  · simp only [next, baseline]
    rw [add_sub_cancel]
    simp only [clamp]
    exact max_le_max le_rfl (le_trans (min_le_right _ _) (by linarith))
  · simp only [next, baseline]
    rw [add_sub_cancel]
    exact clamp_mono r (by linarith)

/-- C32: when the usage exceeds the total memory, the limit without the surge drops by at least the excess
(or to the minimum). -/
theorem C32_over_total_reduces (r : Reg ℚ) (cur : ℚ) (m : Meas ℚ) (ho : m.total < m.peak) :
    (next r cur m).1 ≤ max r.minLimit (baseline r cur - (m.peak - m.total) - m.surge) := by
  have ha : adjustment r m ≤ m.total - m.peak := by
    simp only [adjustment]
    rw [if_pos (show m.total - m.peak < 0 by linarith)]
    split
    · exact le_trans (min_le_right _ _) (min_le_left _ _)
    · exact min_le_left _ _
  simp only [next, clamp, baseline]
  exact max_le_max le_rfl (le_trans (min_le_right _ _) (by linarith))

/-- C32: in particular the limit does not grow when usage exceeds the total memory and no surge was reserved
for before. -/
theorem C32_over_total_no_increase (r : Reg ℚ) (cur : ℚ) (m : Meas ℚ) (hs : 0 ≤ m.surge) (ho : m.total < m.peak)
    (hc : r.minLimit ≤ cur) (hp : r.prevSurge = 0) : (next r cur m).1 ≤ cur := by
  refine le_trans (C32_over_total_reduces r cur m ho) (max_le hc ?_)
  simp only [baseline, hp]
  linarith

/-- C32 fails right after a surge: with the default gains, the limit is raised although the usage is above
the total memory, because the surge reservation is given back at the same time. -/
theorem C32_raised_over_total_after_surge_fails :
    ∃ (r : Reg ℚ) (m1 m2 : Meas ℚ), mk 100 (4/5) 10 (2/5) (1/20) (1/10) 50 = some r ∧
      m2.surge = 0 ∧ m2.total < m2.peak ∧
      (next r 50 m1).1 < (next (next r 50 m1).2 (next r 50 m1).1 m2).1 := by
  refine ⟨⟨100, 4/5, 10, 2/5, 1/20, 1/10, 0, 0, 0, 50⟩, ⟨80, 30, 100⟩, ⟨101, 0, 100⟩, ?_, rfl, by norm_num, ?_⟩
  · unfold mk; norm_num
  · norm_num [next, adjustment, remember, clamp]

/-- C32: when the surge is over the limit is restored: after any series of surge measurements that gave no
reason to reduce the limit, the next limit without surge is the one that would have been returned had the
surge never been reported. -/
theorem C32_restored_after_surge (r : Reg ℚ) (cur : ℚ) (hb1 : r.minLimit ≤ baseline r cur)
    (hb2 : baseline r cur ≤ r.maxLimit) (ms : List (Meas ℚ))
    (hs : ∀ m ∈ ms, m.surge > 0 ∧ 0 ≤ m.total - m.peak ∧ 0 ≤ r.kp * (m.total * r.ratio - m.peak)
      + r.ki * r.integral + r.kd * (m.total * r.ratio - m.peak - r.prevError))
    (m : Meas ℚ) :
    (next (runFrom r cur ms).2.2 (runFrom r cur ms).2.1 m).1 = (next r cur m).1 := by
  induction ms generalizing r cur with
  | nil => rfl
  | cons a ms ih =>
    have ha := hs a (by simp)
    have hadj : adjustment r a = 0 := by
      simp only [adjustment]
      rw [if_pos ha.1, if_neg (by linarith [ha.2.1])]
      exact min_eq_left ha.2.2
    have hne : a.surge ≠ 0 := ne_of_gt ha.1
    have hbase : baseline (next r cur a).2 (next r cur a).1 = baseline r cur := by
      simp only [next, baseline, hadj, add_zero]
      rw [add_sub_cancel]
      exact clamp_of_mem r hb1 hb2
    have hr2 : (next r cur a).2 = { r with prevSurge := (next r cur a).2.prevSurge } := by
      simp [next, remember, hne]
    have hrun : (runFrom r cur (a :: ms)).2 = (runFrom (next r cur a).2 (next r cur a).1 ms).2 := rfl
    rw [hrun]
    have key := ih (next r cur a).2 (next r cur a).1 (by rw [hbase, hr2]; exact hb1)
      (by rw [hbase, hr2]; exact hb2) (by
        intro m' hm'
        rw [hr2]
        exact hs m' (by simp [hm']))
    rw [key]
    have e : ∀ (r : Reg ℚ) (cur : ℚ), (next r cur m).1 = clamp r (baseline r cur + adjustment r m - m.surge) :=
      fun _ _ => rfl
    rw [e, e, hbase, hr2]
    rfl

/-- C32: the controller steers towards the target: from a fresh history, with non-negative gains, a limit
within the bounds is never lowered while the usage is at most the target, never raised while it is above,
and the change is proportional to the distance from the target until a bound is reached. -/
theorem C32_steers_to_target (r : Reg ℚ) (hi : r.integral = 0) (he : r.prevError = 0) (hp : r.prevSurge = 0)
    (h1 : 0 ≤ r.kp) (h2 : 0 ≤ r.kd) (cur : ℚ) (hc1 : r.minLimit ≤ cur) (hc2 : cur ≤ r.maxLimit)
    (m : Meas ℚ) (hs : m.surge = 0) :
    (m.peak ≤ m.total → m.peak ≤ m.total * r.ratio → cur ≤ (next r cur m).1) ∧
    (m.total * r.ratio ≤ m.peak → (next r cur m).1 ≤ cur) ∧
    (m.peak ≤ m.total →
      (next r cur m).1 = max r.minLimit (min r.maxLimit (cur + (r.kp + r.kd) * (m.total * r.ratio - m.peak)))) := by
  have hlim : (next r cur m).1 = clamp r (cur + adjustment r m) := by
    simp only [next, hp, hs, add_zero, sub_zero]
  have hcur := clamp_of_mem r hc1 hc2
  have hbase : m.peak ≤ m.total → adjustment r m = (r.kp + r.kd) * (m.total * r.ratio - m.peak) := by
    intro h
    simp only [adjustment, hi, he, hs]
    rw [if_neg (lt_irrefl _), if_neg (by linarith)]
    ring
  refine ⟨?_, ?_, ?_⟩
  · intro h h'
    rw [hlim, hbase h]
    conv => lhs; rw [← hcur]
    apply clamp_mono
    nlinarith
  · intro h
    rw [hlim]
    conv => rhs; rw [← hcur]
    apply clamp_mono
    suffices adjustment r m ≤ 0 by linarith
    simp only [adjustment, hi, he, hs]
    rw [if_neg (lt_irrefl _)]
    split
    · exact le_trans (min_le_left _ _) (by linarith)
    · nlinarith
  · intro h
    rw [hlim, hbase h]; rfl

/-- C32: the history adds up: without surges and within the wind-up bounds, the accumulated error is the sum
of the distances from the target, and the last one is remembered. -/
theorem C32_history_accumulates (r : Reg ℚ) (cur : ℚ) (m : Meas ℚ) (hs : m.surge = 0)
    (hw : -r.windup ≤ r.integral + (m.total * r.ratio - m.peak) ∧
      r.integral + (m.total * r.ratio - m.peak) ≤ r.windup) :
    (next r cur m).2.integral = r.integral + (m.total * r.ratio - m.peak) ∧
    (next r cur m).2.prevError = m.total * r.ratio - m.peak := by
  simp [next, remember, hs, hw.1, hw.2]

/-- C32: in bytes, every limit is between the rounded minimum and the maximum. -/
theorem C32_bytes_bounds (r : Reg ℚ) (h : r.minLimit ≤ r.maxLimit) (cur : ℤ) (p : Option (Meas ℚ)) :
    ⌊r.minLimit * 1024 ^ 3⌋ ≤ (updateLimitBytes r cur p).1 ∧
    ((updateLimitBytes r cur p).1 : ℚ) ≤ r.maxLimit * 1024 ^ 3 := by
  have := C32_bounds r h (cur / 1024 ^ 3) [p.getD ⟨0, 0, 0⟩] _ (List.mem_singleton.mpr rfl)
  simp only [updateLimitBytes]
  constructor
  · apply Int.floor_le_floor
    nlinarith [this.1]
  · refine le_trans (Int.floor_le _) ?_
    nlinarith [this.2]

/-- C32: without a registered profiler, a regulator that has learnt nothing keeps any limit within its
bounds, for ever. -/
theorem C32_no_profiler_constant (r : Reg ℚ) (hi : r.integral = 0) (he : r.prevError = 0) (hp : r.prevSurge = 0)
    (hw : 0 ≤ r.windup) (cur : ℤ) (h1 : r.minLimit ≤ cur / 1024 ^ 3) (h2 : (cur : ℚ) / 1024 ^ 3 ≤ r.maxLimit) :
    updateLimitBytes r cur none = (cur, r) := by
  have ha : adjustment r ⟨0, 0, 0⟩ = 0 := by simp [adjustment, hi, he]
  have hm : remember r ⟨0, 0, 0⟩ = r := by
    simp only [remember, hi, if_true]
    cases r
    simp only at hi he hw ⊢
    subst hi; subst he
    congr
    · rw [min_eq_right (by linarith), max_eq_right (by linarith)]; norm_num
    · norm_num
  have hn : next r ((cur : ℚ) / 1024 ^ 3) ⟨0, 0, 0⟩ = ((cur : ℚ) / 1024 ^ 3, r) := by
    simp only [next, ha, hp, hm, add_zero, sub_zero]
    rw [clamp_of_mem r h1 h2]
    simp only [sub_self, Prod.mk.injEq, true_and]
    cases r
    simp only at hp
    subst hp; rfl
  simp only [updateLimitBytes, Option.getD_none, hn, Prod.mk.injEq, and_true]
  rw [div_mul_cancel₀ _ (by norm_num)]
  exact Int.floor_intCast cur

/-! Non-vacuity: the default regulator for 100 GiB, at 50 GiB: usage of 60 of 100 GiB raises the limit to 60,
a surge of 30 GiB then lowers it, and the end of the surge restores it. -/

example : ∃ r : Reg ℚ, mk 100 (4/5) 10 (2/5) (1/20) (1/10) 50 = some r ∧
    (runFrom r 50 [⟨60, 0, 100⟩, ⟨80, 30, 100⟩]).1 = [60, 29] := by
  refine ⟨⟨100, 4/5, 10, 2/5, 1/20, 1/10, 0, 0, 0, 50⟩, ?_, ?_⟩
  · unfold mk; norm_num
  · norm_num [runFrom, next, adjustment, remember, clamp]

example : ∃ r : Reg ℚ, mk 100 (4/5) 10 (2/5) (1/20) (1/10) 50 = some r ∧
    r.minLimit ≤ baseline r 50 ∧ baseline r 50 ≤ r.maxLimit ∧
    (∀ m ∈ [(⟨60, 30, 100⟩ : Meas ℚ), ⟨70, 5, 100⟩], m.surge > 0 ∧ 0 ≤ m.total - m.peak ∧
      0 ≤ r.kp * (m.total * r.ratio - m.peak)
      + r.ki * r.integral + r.kd * (m.total * r.ratio - m.peak - r.prevError)) ∧
    (runFrom r 50 [⟨60, 30, 100⟩, ⟨70, 5, 100⟩, ⟨80, 0, 100⟩]).1 = [20, 45, 50] := by
  refine ⟨⟨100, 4/5, 10, 2/5, 1/20, 1/10, 0, 0, 0, 50⟩, ?_, ?_, ?_, ?_, ?_⟩
  · unfold mk; norm_num
  · norm_num [baseline]
  · norm_num [baseline]
  · norm_num
  · norm_num [runFrom, next, adjustment, remember, clamp]

end rational

end Verif.Memory.Regulator
