import Verif.Policies.Lemmas

/-!
# Properties C01–C07: checkpoint preservation policies

The specification vocabulary is only: `l[i]? = some true` ("checkpoint number `i` is kept"),
list lengths, and the small predicates defined in this file.
-/

namespace Verif.Policies.Props

open Verif Verif.Policies
open scoped List

/-- Checkpoint `i` is kept by the decision `flags`. -/
def Kept (flags : List Bool) (i : Nat) : Prop := flags[i]? = some true

instance (flags : List Bool) (i : Nat) : Decidable (Kept flags i) := by unfold Kept; infer_instance

/-! ## C01 -/

/-- **C01** `LatestN(n)`, `n ≥ 0`: one flag per checkpoint, and checkpoint `i` is kept iff fewer than
`n` checkpoints follow it. -/
theorem C01_latestN (n : Int) (hn : 0 ≤ n) (cs : List Ckpt) :
    (latestN (some n) cs).length = cs.length ∧
    ∀ i, i < cs.length → (Kept (latestN (some n) cs) i ↔ ((cs.drop (i + 1)).length : Int) < n) := by
  unfold latestN
  simp only
  split
  · refine ⟨by simp [rep_length], fun i hi => ?_⟩
    simp only [Kept, rep_getElem?, List.length_drop]
    have : (i : Int) < cs.length := by omega
    simp [this]; omega
  · refine ⟨by simp [rep_length]; omega, fun i hi => ?_⟩
    simp only [Kept, List.getElem?_append, rep_length, rep_getElem?, List.length_drop]
    split
    · split <;> simp <;> omega
    · split <;> simp <;> omega

/-- **C01** `LatestN(None)` keeps everything. -/
theorem C01_latestN_none (cs : List Ckpt) :
    (latestN none cs).length = cs.length ∧ ∀ i, i < cs.length → Kept (latestN none cs) i := by
  unfold latestN
  refine ⟨by simp [rep_length], fun i hi => ?_⟩
  simp only [Kept, rep_getElem?]
  have : (i : Int) < cs.length := by omega
  simp [this]

/-- **C01** (`PreserveAll`). -/
theorem C01_preserveAll (cs : List Ckpt) :
    (preserveAll cs).length = cs.length ∧ ∀ i, i < cs.length → Kept (preserveAll cs) i :=
  C01_latestN_none cs

/-- Non-vacuity: five checkpoints, `n = 2`: exactly the last two are kept. -/
example : (List.range 5).filter (fun i => decide (Kept (latestN (some 2)
    [⟨1,0,none⟩, ⟨2,0,none⟩, ⟨3,0,none⟩, ⟨5,0,none⟩, ⟨8,0,none⟩]) i)) = [3, 4] := by decide

/-- Finding (C01): the guard `0 ≤ n` is needed.  `LatestN(n=-1)` is not rejected and yields *more*
flags than checkpoints. -/
theorem C01_negative_n_fails : (latestN (some (-1)) [⟨1,0,none⟩]).length = 2 := by decide

/-! ## C02 -/

/-- `i` is the last checkpoint kept before position `j`. -/
def LastKeptBefore (flags : List Bool) (j i : Nat) : Prop :=
  i < j ∧ Kept flags i ∧ ∀ k, i < k → k < j → ¬ Kept flags k

/-- Thinning by a measure: the first checkpoint is kept, and every later checkpoint is kept iff it
lies at least `interval` after the last checkpoint kept before it. -/
def ThinnedBy (val : Ckpt → Int) (interval : Int) (cs : List Ckpt) (flags : List Bool) : Prop :=
  flags.length = cs.length ∧
  (cs ≠ [] → Kept flags 0) ∧
  ∀ j c, 0 < j → cs[j]? = some c →
    ∃ i d, LastKeptBefore flags j i ∧ cs[i]? = some d ∧
      (Kept flags j ↔ val c - val d ≥ interval)

/-- Common shape of both interval loops. -/
def thinLoop (val : Ckpt → Int) (interval last : Int) : List Ckpt → List Bool
  | [] => []
  | c :: cs =>
    if val c - last ≥ interval then true :: thinLoop val interval (val c) cs
    else false :: thinLoop val interval last cs

theorem everyNSecondsLoop_eq (interval last : Int) (cs : List Ckpt) :
    everyNSecondsLoop interval last cs = thinLoop Ckpt.time interval last cs := by
  induction cs generalizing last with
  | nil => rfl
  | cons c cs ih => simp [everyNSecondsLoop, thinLoop, ih]

theorem everyNStepsLoop_eq (interval last : Int) (cs : List Ckpt) :
    everyNStepsLoop interval last cs = thinLoop Ckpt.step interval last cs := by
  induction cs generalizing last with
  | nil => rfl
  | cons c cs ih => simp [everyNStepsLoop, thinLoop, ih]

theorem thinLoop_length (val : Ckpt → Int) (interval last : Int) (cs : List Ckpt) :
    (thinLoop val interval last cs).length = cs.length := by
  induction cs generalizing last with
  | nil => rfl
  | cons c cs ih => simp only [thinLoop]; split <;> simp [ih]

/-- The state of the loop: `pre`/`pf` are the checkpoints and flags produced so far, of which
`i0` is the last kept, with measure `last`. -/
theorem thinLoop_spec (val : Ckpt → Int) (interval : Int) (cs pre : List Ckpt) (pf : List Bool)
    (hlen : pf.length = pre.length) (i0 : Nat) (d0 : Ckpt) (last : Int)
    (hd : pre[i0]? = some d0) (hv : val d0 = last)
    (hk : LastKeptBefore pf pf.length i0) :
    ∀ j c, cs[j]? = some c →
      ∃ i d, LastKeptBefore (pf ++ thinLoop val interval last cs) (pre.length + j) i ∧
        (pre ++ cs)[i]? = some d ∧
        (Kept (pf ++ thinLoop val interval last cs) (pre.length + j) ↔
          val c - val d ≥ interval) := by
  induction cs generalizing pre pf i0 d0 last with
  | nil => intro j c hj; simp at hj
  | cons x cs ih =>
    intro j c hj
    have hi0 : i0 < pre.length := (List.getElem?_eq_some_iff.mp hd).1
    obtain ⟨hk1, hk2, hk3⟩ := hk
    -- the flag emitted for `x`
    obtain ⟨b, rest, hb, hbv, hrest⟩ : ∃ b rest, thinLoop val interval last (x :: cs) = b :: rest ∧
        (b = true ↔ val x - last ≥ interval) ∧
        rest = thinLoop val interval (if b then val x else last) cs := by
      simp only [thinLoop]
      split
      · rename_i hx; exact ⟨true, _, rfl, by simp only [true_iff]; exact hx, by simp⟩
      · rename_i hx; exact ⟨false, _, rfl, by simp only [Bool.false_eq_true, false_iff]; exact hx, by simp⟩
    rw [hb]
    cases j with
    | zero =>
      simp at hj; subst hj
      refine ⟨i0, d0, ⟨by omega, ?_, ?_⟩, ?_, ?_⟩
      · unfold Kept at *; rw [List.getElem?_append_left (by omega)]; exact hk2
      · intro k h1 h2 hkk
        unfold Kept at hkk
        rw [List.getElem?_append_left (by omega)] at hkk
        exact hk3 k h1 (by omega) hkk
      · rw [List.getElem?_append_left hi0]; exact hd
      · unfold Kept
        rw [List.getElem?_append_right (by omega)]
        have : pre.length + 0 - pf.length = 0 := by omega
        rw [this, hv, ← hbv]; simp
    | succ j =>
      simp at hj
      have e1 : pf ++ b :: rest = (pf ++ [b]) ++ rest := by simp
      have e2 : pre ++ x :: cs = (pre ++ [x]) ++ cs := by simp
      have e3 : pre.length + (j + 1) = (pre ++ [x]).length + j := by simp; omega
      rw [e1, e2, e3, hrest]
      cases b with
      | true =>
        refine ih (pre ++ [x]) (pf ++ [true]) (by simp [hlen]) pre.length x (val x)
          (by simp) rfl ⟨by simp [hlen], ?_, ?_⟩ j c hj
        · unfold Kept; rw [List.getElem?_append_right (by omega)]; simp [hlen]
        · intro k h1 h2; simp at h2; omega
      | false =>
        refine ih (pre ++ [x]) (pf ++ [false]) (by simp [hlen]) i0 d0 last ?_ hv
          ⟨by simp; omega, ?_, ?_⟩ j c hj
        · rw [List.getElem?_append_left hi0]; exact hd
        · unfold Kept at *; rw [List.getElem?_append_left (by omega)]; exact hk2
        · intro k h1 h2 hkk
          unfold Kept at hkk hk3
          by_cases hlt : k < pf.length
          · rw [List.getElem?_append_left hlt] at hkk; exact hk3 k h1 hlt hkk
          · rw [List.getElem?_append_right (by omega)] at hkk
            have : k - pf.length = 0 := by simp at h2; omega
            simp [this] at hkk

theorem thinned (val : Ckpt → Int) (interval : Int) (c : Ckpt) (cs : List Ckpt) :
    ThinnedBy val interval (c :: cs) (true :: thinLoop val interval (val c) cs) := by
  refine ⟨by simp [thinLoop_length], fun _ => by simp [Kept], ?_⟩
  intro j d hj hd
  obtain ⟨j, rfl⟩ : ∃ j', j = j' + 1 := ⟨j - 1, by omega⟩
  have := thinLoop_spec val interval cs [c] [true] rfl 0 c (val c) (by simp) rfl
    ⟨by simp, by simp [Kept], by simp; omega⟩ j d (by simpa using hd)
  simpa [Nat.add_comm] using this

/-- **C02** for `EveryNSeconds`. -/
theorem C02_everyNSeconds (interval : Int) (cs : List Ckpt) :
    ThinnedBy Ckpt.time interval cs (everyNSeconds interval cs) := by
  cases cs with
  | nil => exact ⟨rfl, by simp, by simp⟩
  | cons c cs => simp only [everyNSeconds, everyNSecondsLoop_eq]; exact thinned _ _ _ _

/-- **C02** for `EveryNSteps(exact_interval=False)` without `max_to_keep`; a zero interval is
rejected. -/
theorem C02_everyNSteps (interval : Int) (cs : List Ckpt) (flags : List Bool)
    (h : everyNSteps interval false none cs = .ok flags) :
    interval ≠ 0 ∧ ThinnedBy Ckpt.step interval cs flags := by
  unfold everyNSteps at h
  split at h
  · cases h
  · rename_i h0
    refine ⟨h0, ?_⟩
    simp only [trim, Except.ok.injEq] at h
    subst h
    cases cs with
    | nil => exact ⟨rfl, by simp, by simp⟩
    | cons c cs => simp only [everyNStepsLoop_eq]; exact thinned _ _ _ _

/-- **C02** consequence: two kept checkpoints with none kept between are at least `interval`
apart, and a dropped checkpoint is less than `interval` after the last kept before it. -/
theorem C02_spacing (val : Ckpt → Int) (interval : Int) (cs : List Ckpt) (flags : List Bool)
    (h : ThinnedBy val interval cs flags) (i j : Nat) (c d : Ckpt)
    (hc : cs[j]? = some c) (hd : cs[i]? = some d) (hl : LastKeptBefore flags j i) :
    (Kept flags j → val c - val d ≥ interval) ∧ (¬ Kept flags j → val c - val d < interval) := by
  obtain ⟨_, _, h3⟩ := h
  obtain ⟨i', d', hl', hd', hiff⟩ := h3 j c (by have := hl.1; omega) hc
  have : i = i' := by
    rcases Nat.lt_trichotomy i i' with h | h | h
    · exact absurd hl'.2.1 (hl.2.2 i' h hl'.1)
    · exact h
    · exact absurd hl.2.1 (hl'.2.2 i h hl.1)
  subst this
  rw [hd] at hd'; cases hd'
  exact ⟨hiff.mp, fun hn => by
    rcases Int.lt_or_le (val c - val d) interval with h | h
    · exact h
    · exact absurd (hiff.mpr h) hn⟩

/-- Non-vacuity: irregular times are thinned to 0, 10, 23. -/
example : everyNSeconds 10 [⟨0,0,none⟩, ⟨1,4,none⟩, ⟨2,10,none⟩, ⟨3,19,none⟩, ⟨4,23,none⟩] =
    [true, false, true, false, true] := by decide

/-! ## C03 -/

/-- Is a multiple of the interval. -/
def Multiple (interval : Int) (c : Ckpt) : Prop := interval ∣ c.step

instance (interval : Int) (c : Ckpt) : Decidable (Multiple interval c) := by
  unfold Multiple; infer_instance

/-- **C03** (exact interval, no bound): kept iff the step is a multiple. -/
theorem C03_exact (interval : Int) (cs : List Ckpt) (flags : List Bool)
    (h : everyNSteps interval true none cs = .ok flags) :
    flags.length = cs.length ∧
    ∀ i c, cs[i]? = some c → (Kept flags i ↔ interval ∣ c.step) := by
  unfold everyNSteps at h
  split at h
  · cases h
  · simp only [trim, Except.ok.injEq] at h
    subst h
    refine ⟨by simp, fun i c hc => ?_⟩
    simp [Kept, hc, Int.dvd_iff_emod_eq_zero]

/-- **C03** (exact interval, bound `m ≥ 1`): kept iff the step is a multiple and fewer than `m`
later checkpoints are multiples. -/
theorem C03_exact_bounded_partial (interval m : Int) (hm : 0 < m) (cs : List Ckpt) (flags : List Bool)
    (h : everyNSteps interval true (some m) cs = .ok flags) :
    flags.length = cs.length ∧
    ∀ i c, cs[i]? = some c →
      (Kept flags i ↔ interval ∣ c.step ∧
        (((cs.drop (i + 1)).filter (fun d => decide (interval ∣ d.step))).length : Int) < m) := by
  unfold everyNSteps at h
  split at h
  · cases h
  · simp only [if_true, Except.ok.injEq] at h
    subst h
    refine ⟨by simp [trim_length], fun i c hc => ?_⟩
    have hcount : ∀ l : List Ckpt,
        (l.map fun c => decide (c.step % interval = 0)).count true =
          (l.filter (fun d => decide (interval ∣ d.step))).length := by
      intro l
      induction l with
      | nil => rfl
      | cons x l ih =>
        by_cases hx : interval ∣ x.step
        · have : x.step % interval = 0 := (Int.dvd_iff_emod_eq_zero).mp hx
          simp [hx, this, ih]
        · have : ¬ x.step % interval = 0 := fun e => hx ((Int.dvd_iff_emod_eq_zero).mpr e)
          simp [hx, this, ih]
    unfold Kept
    rw [trim_getElem? m hm, ← List.map_drop, hcount]
    simp [hc, Int.dvd_iff_emod_eq_zero]

/-- **C03** bound: with `max_to_keep = m ≥ 1`, at most `m` checkpoints are kept, in both modes. -/
theorem C03_max_to_keep_bound_partial (interval m : Int) (exact : Bool) (hm : 0 < m) (cs : List Ckpt)
    (flags : List Bool) (h : everyNSteps interval exact (some m) cs = .ok flags) :
    ((flags.count true : Nat) : Int) ≤ m := by
  unfold everyNSteps at h
  split at h
  · cases h
  · simp only [Except.ok.injEq] at h
    subst h
    exact trim_count_le m hm _

/-- **C03** rejection: interval zero is an error, everything else is accepted. -/
theorem C03_rejects (interval : Int) (exact : Bool) (m : Option Int) (cs : List Ckpt) :
    (everyNSteps interval exact m cs = .error .intervalZero ↔ interval = 0) ∧
    (interval ≠ 0 → ∃ flags, everyNSteps interval exact m cs = .ok flags) := by
  unfold everyNSteps
  constructor
  · constructor
    · intro h; split at h
      · assumption
      · cases h
    · intro h; simp [h]
  · intro h; simp [h]

/-- Finding (C03): the full bound fails at `max_to_keep = 0`.  `true_indices[:-0]` is empty, so
`EveryNSteps(1, max_to_keep=0)` keeps every checkpoint instead of none. -/
theorem C03_max_to_keep_zero_fails :
    everyNSteps 1 true (some 0) [⟨1,0,none⟩, ⟨2,0,none⟩, ⟨3,0,none⟩] = .ok [true, true, true] := by
  decide

/-- Finding (C03), for every input: `max_to_keep=0` never trims anything. -/
theorem C03_max_to_keep_zero_is_unbounded (interval : Int) (exact : Bool) (cs : List Ckpt) :
    everyNSteps interval exact (some 0) cs = everyNSteps interval exact none cs := by
  unfold everyNSteps trim
  split
  · rfl
  · simp [Py.sliceTo]

/-- Non-vacuity: steps 2,4,5,6,8 with interval 2, bound 2: steps 6 and 8 are kept. -/
example : everyNSteps 2 true (some 2)
    [⟨2,0,none⟩, ⟨4,0,none⟩, ⟨5,0,none⟩, ⟨6,0,none⟩, ⟨8,0,none⟩] =
    .ok [false, false, false, true, true] := by decide

/-! ## C04 -/

/-- `k * interval` is a grid point nearest to the step of `c`. -/
def NearestGrid (interval k : Int) (c : Ckpt) : Prop :=
  ∀ k', (c.step - k * interval).natAbs ≤ (c.step - k' * interval).natAbs

theorem pyAbs_eq (a : Int) : pyAbs a = (a.natAbs : Int) := by
  unfold pyAbs; split <;> omega

theorem natAbs_mul_ge (b : Int) (k : Int) (hk : k ≠ 0) : b.natAbs ≤ (k * b).natAbs := by
  rw [Int.natAbs_mul]
  exact Nat.le_mul_of_pos_left _ (by omega)

theorem roundDiv_nearestGrid (interval : Int) (hi : interval ≠ 0) (c : Ckpt) :
    NearestGrid interval (roundDiv c.step interval) c := by
  intro k'
  have h := roundDiv_nearest c.step interval hi
  rw [pyAbs_eq, pyAbs_eq] at h
  generalize roundDiv c.step interval = k at *
  by_cases hk : k = k'
  · subst hk; exact Nat.le_refl _
  · have h2 := natAbs_mul_ge interval (k - k') (by omega)
    have h3 : (k - k') * interval = (c.step - k' * interval) - (c.step - k * interval) := by
      rw [Int.sub_mul]; omega
    rw [h3] at h2
    omega

/-- The decision before `max_to_keep` is applied, for a non-empty list. -/
theorem closest_unbounded (interval : Int) (cs : List Ckpt) (flags : List Bool)
    (h : everyNStepsClosest interval none cs = .ok flags) :
    flags.length = cs.length ∧
    ∀ i, i < cs.length → (Kept flags i ↔ i + 1 = cs.length ∨ IsBest interval cs i) := by
  unfold everyNStepsClosest at h
  split at h
  · cases h
  · split at h
    · rename_i hn; cases h; subst hn; simp
    · simp only [trim, Except.ok.injEq] at h
      subst h
      refine ⟨by simp [foldl_set_length, rep_length], fun i hi => ?_⟩
      unfold Kept
      have hb := mem_bestIndices interval cs i
      generalize (cs.zipIdx.foldl (closestStep interval) []).map (·.2.1) = best at hb
      rw [List.getElem?_set, foldl_set_getElem?]
      simp only [hb, foldl_set_length, rep_length, Int.toNat_natCast, hi, and_true, rep_getElem?]
      by_cases hl : cs.length - 1 = i
      · have : i + 1 = cs.length := by omega
        simp [hl, this, hi]
      · have : ¬ (i + 1 = cs.length) := by omega
        have hi' : (i : Int) < cs.length := by omega
        simp only [hl, if_false, this, false_or, hi', if_true]
        split <;> simp_all [rep_length]

/-- **C04** (no bound): the last checkpoint is kept. -/
theorem C04_last_kept (interval : Int) (cs : List Ckpt) (flags : List Bool)
    (h : everyNStepsClosest interval none cs = .ok flags) (hne : cs ≠ []) :
    Kept flags (cs.length - 1) := by
  obtain ⟨_, h2⟩ := closest_unbounded interval cs flags h
  have : 0 < cs.length := List.length_pos_iff.mpr hne
  exact (h2 _ (by omega)).mpr (.inl (by omega))

/-- **C04** (no bound): every checkpoint is represented by a kept one: there is a grid point nearest
to both such that the kept checkpoint is at least as close to it. -/
theorem C04_every_target_served (interval : Int) (cs : List Ckpt) (flags : List Bool)
    (h : everyNStepsClosest interval none cs = .ok flags) (i : Nat) (c : Ckpt)
    (hc : cs[i]? = some c) :
    ∃ k j d, Kept flags j ∧ cs[j]? = some d ∧ NearestGrid interval k c ∧ NearestGrid interval k d ∧
      (d.step - k * interval).natAbs ≤ (c.step - k * interval).natAbs := by
  have hi0 : interval ≠ 0 := by
    intro h0; subst h0; simp [everyNStepsClosest] at h
  obtain ⟨_, h2⟩ := closest_unbounded interval cs flags h
  have hinv := binv_all interval cs
  obtain ⟨⟨j, d'⟩, hv⟩ := hinv.complete i c hc
  obtain ⟨d, hd, hk, hg, hb⟩ := hinv.sound _ _ _ hv
  have hj : j < cs.length := (List.getElem?_eq_some_iff.mp hd).1
  refine ⟨roundDiv c.step interval, j, d, (h2 j hj).mpr (.inr hb), hd,
    roundDiv_nearestGrid _ hi0 _, hk ▸ roundDiv_nearestGrid _ hi0 _, ?_⟩
  obtain ⟨d0, hd0, hb⟩ := hb
  rw [hd] at hd0; cases hd0
  have := hb i c hc hk.symm
  simp only [gridDiff, pyAbs_eq, hk] at this
  omega

/-- **C04** (no bound): nothing superfluous is kept.  A kept checkpoint other than the last has a
nearest grid point `k` such that every checkpoint for which `k` is the *only* nearest grid point is
farther away, or equally far and not later. -/
theorem C04_kept_is_closest (interval : Int) (cs : List Ckpt) (flags : List Bool)
    (h : everyNStepsClosest interval none cs = .ok flags) (i : Nat) (c : Ckpt)
    (hc : cs[i]? = some c) (hk : Kept flags i) (hl : i + 1 ≠ cs.length) :
    ∃ k, NearestGrid interval k c ∧ ∀ j d, cs[j]? = some d →
      NearestGrid interval k d → (∀ k', NearestGrid interval k' d → k' = k) →
      (c.step - k * interval).natAbs < (d.step - k * interval).natAbs ∨
      ((c.step - k * interval).natAbs = (d.step - k * interval).natAbs ∧ j ≤ i) := by
  have hi0 : interval ≠ 0 := by
    intro h0; subst h0; simp [everyNStepsClosest] at h
  obtain ⟨_, h2⟩ := closest_unbounded interval cs flags h
  have hi : i < cs.length := (List.getElem?_eq_some_iff.mp hc).1
  rcases (h2 i hi).mp hk with h' | ⟨c', hc', hb⟩
  · exact absurd h' hl
  · rw [hc] at hc'; cases hc'
    refine ⟨roundDiv c.step interval, roundDiv_nearestGrid _ hi0 _, ?_⟩
    intro j d hd _ huniq
    have he := huniq _ (roundDiv_nearestGrid interval hi0 d)
    have := hb j d hd he
    simp only [gridDiff, pyAbs_eq, he] at this
    omega

/-- **C04** (bound `m ≥ 1`): exactly the newest `m` of the unbounded decision are kept. -/
theorem C04_bounded_partial (interval m : Int) (hm : 0 < m) (cs : List Ckpt) (flags flags' : List Bool)
    (h : everyNStepsClosest interval none cs = .ok flags)
    (h' : everyNStepsClosest interval (some m) cs = .ok flags') :
    flags'.length = cs.length ∧
    (∀ i, Kept flags' i ↔ Kept flags i ∧ ((flags.drop (i + 1)).count true : Int) < m) ∧
    ((flags'.count true : Nat) : Int) ≤ m := by
  unfold everyNStepsClosest at h h'
  split at h
  · cases h
  · split at h
    · rename_i h1 hn
      simp only [h1, hn, if_true, if_false, Except.ok.injEq] at h h'
      subst h; subst h'; subst hn; simp [Kept]; omega
    · rename_i h1 hn
      simp only [h1, hn, if_false, Except.ok.injEq] at h h'
      subst h; subst h'
      refine ⟨by simp [trim_length, foldl_set_length, rep_length], fun i => ?_, trim_count_le m hm _⟩
      exact trim_getElem? m hm _ i

/-- Finding (C04): as for C03, `max_to_keep=0` removes the bound altogether. -/
theorem C04_max_to_keep_zero_is_unbounded (interval : Int) (cs : List Ckpt) :
    everyNStepsClosest interval (some 0) cs = everyNStepsClosest interval none cs := by
  unfold everyNStepsClosest trim
  split
  · rfl
  · split
    · rfl
    · simp [Py.sliceTo]

/-- Non-vacuity: interval 10, steps 8, 11, 19, 21, 34: 11 (ties with none), 21 on the 19/21 tie, and
34 (which is also the last). -/
example : everyNStepsClosest 10 none
    [⟨8,0,none⟩, ⟨11,0,none⟩, ⟨19,0,none⟩, ⟨21,0,none⟩, ⟨34,0,none⟩] =
    .ok [false, true, false, true, true] := by decide

/-! ## C05 -/

/-- `a` is strictly worse than `b`: smaller metric (larger when `reverse`). -/
def Worse (reverse : Bool) (a b : Int) : Prop := if reverse then b < a else a < b

theorem bestN_core (reverse : Bool) (n : Int) (hn : 0 < n) (keepWithout : Bool) (cs : List Ckpt)
    (hlt : n < cs.length) (i : Nat) (hi : i < cs.length) :
    Kept (bestN reverse (some n) keepWithout cs) i ↔
      (i ∈ (((withMetrics cs).mergeSort (metricLe reverse)).drop
          ((withMetrics cs).length - n.toNat)).map (·.2)) ∨
      (keepWithout = true ∧ i ∈ withoutMetrics cs) := by
  unfold bestN
  have h1 : ¬ ((cs.length : Int) ≤ n) := by omega
  have h2 : ¬ n = 0 := by omega
  have h3 : -n < 0 := by omega
  have h4 : ((withMetrics cs).length : Int) + -n = ((withMetrics cs).length : Int) - n := by omega
  have h5 : (((withMetrics cs).length : Int) - n).toNat = (withMetrics cs).length - n.toNat := by omega
  simp only [h1, h2, if_false, Py.sliceFrom, h3, if_true, List.length_mergeSort, h4, h5, Kept]
  rw [List.getElem?_map, List.getElem?_range hi]
  cases keepWithout <;> simp

/-- **C05** (`1 ≤ n < number of checkpoints`): a checkpoint with a metric that is kept is never
strictly worse than one with a metric that is dropped; and on equal metrics the later one wins. -/
theorem C05_kept_are_best (reverse : Bool) (n : Int) (hn : 0 < n) (keepWithout : Bool)
    (cs : List Ckpt) (hlt : n < cs.length) (i j : Nat) (c d : Ckpt) (mc md : Int)
    (hc : cs[i]? = some c) (hd : cs[j]? = some d) (hmc : c.metric = some mc)
    (hmd : d.metric = some md)
    (hki : Kept (bestN reverse (some n) keepWithout cs) i)
    (hkj : ¬ Kept (bestN reverse (some n) keepWithout cs) j) :
    ¬ Worse reverse mc md ∧ (mc = md → j < i) := by
  have hi : i < cs.length := (List.getElem?_eq_some_iff.mp hc).1
  have hj : j < cs.length := (List.getElem?_eq_some_iff.mp hd).1
  rw [bestN_core reverse n hn keepWithout cs hlt i hi] at hki
  rw [bestN_core reverse n hn keepWithout cs hlt j hj] at hkj
  have hi' : i ∉ withoutMetrics cs := by
    rw [mem_withoutMetrics]; rintro ⟨c', hc', hm'⟩; rw [hc] at hc'; cases hc'; simp [hmc] at hm'
  replace hki := hki.resolve_right (fun h => hi' h.2)
  replace hkj := fun h => hkj (.inl h)
  generalize hsdef : (withMetrics cs).mergeSort (metricLe reverse) = s at *
  have hpw : s.Pairwise (Before reverse) := hsdef ▸ sorted_pairwise reverse cs
  have hperm : s.Perm (withMetrics cs) := hsdef ▸ List.mergeSort_perm _ _
  obtain ⟨⟨mc', i'⟩, hmem, rfl⟩ := List.mem_map.mp hki
  have hmem2 : (mc', i') ∈ withMetrics cs := hperm.mem_iff.mp (List.mem_of_mem_drop hmem)
  rw [mem_withMetrics] at hmem2
  obtain ⟨c', hc', hm'⟩ := hmem2
  simp only at hc
  rw [hc] at hc'; cases hc'
  rw [hmc] at hm'; cases hm'
  have hjm : (md, j) ∈ s := hperm.mem_iff.mpr ((mem_withMetrics cs md j).mpr ⟨d, hd, hmd⟩)
  generalize ht : (withMetrics cs).length - n.toNat = t at *
  have hsplit := List.take_append_drop t s
  have hjt : (md, j) ∈ s.take t := by
    rw [← hsplit] at hjm
    rcases List.mem_append.mp hjm with h | h
    · exact h
    · exact absurd (List.mem_map.mpr ⟨_, h, rfl⟩) hkj
  rw [← hsplit, List.pairwise_append] at hpw
  have hb := hpw.2.2 _ hjt _ hmem
  unfold Before at hb
  unfold Worse
  simp only at hb ⊢
  cases reverse <;> simp at hb ⊢ <;> omega

/-- **C05**: exactly `min n (number with metrics)` checkpoints with metrics are kept. -/
theorem C05_count (reverse : Bool) (n : Int) (hn : 0 < n) (keepWithout : Bool)
    (cs : List Ckpt) (hlt : n < cs.length) :
    (((List.range cs.length).filter fun i =>
        decide (Kept (bestN reverse (some n) keepWithout cs) i) &&
          ((cs[i]?.bind (·.metric)).isSome)).length : Nat) =
      min n.toNat ((cs.filter fun c => c.metric.isSome).length) := by
  generalize hsdef : (withMetrics cs).mergeSort (metricLe reverse) = s
  have hperm : s.Perm (withMetrics cs) := hsdef ▸ List.mergeSort_perm _ _
  have hlen : (withMetrics cs).length = (cs.filter fun c => c.metric.isSome).length := by
    have : ∀ (cs : List Ckpt) (k : Nat),
        ((cs.zipIdx k).filterMap (fun p => p.1.metric.map fun m => (m, p.2))).length =
          (cs.filter fun c => c.metric.isSome).length := by
      intro cs
      induction cs with
      | nil => intro k; rfl
      | cons c cs ih =>
        intro k
        simp only [List.zipIdx_cons, List.filterMap_cons, List.filter_cons]
        cases c.metric <;> simp [ih]
    exact this cs 0
  -- the kept indices form the list `kept`, which is duplicate-free
  let kept := (s.drop ((withMetrics cs).length - n.toNat)).map (·.2)
  have hnd : (s.map (·.2)).Nodup := by
    refine (hperm.map _).nodup_iff.mpr ?_
    rw [List.nodup_iff_pairwise_ne, List.pairwise_map]
    exact (withMetrics_pairwise cs).imp (fun {a b} h => by omega)
  have hkn : kept.Nodup := by
    have : kept = (s.map (·.2)).drop ((withMetrics cs).length - n.toNat) := by
      simp [kept, List.map_drop]
    rw [this]
    exact (List.drop_sublist _ _).nodup hnd
  have hmemk : ∀ i, i ∈ kept → i < cs.length ∧ ((cs[i]?.bind (·.metric)).isSome) := by
    intro i hi
    obtain ⟨⟨m, i'⟩, hm, rfl⟩ := List.mem_map.mp hi
    have := hperm.mem_iff.mp (List.mem_of_mem_drop hm)
    rw [mem_withMetrics] at this
    obtain ⟨c, hc, hcm⟩ := this
    simp only at hc ⊢
    exact ⟨(List.getElem?_eq_some_iff.mp hc).1, by simp [hc, hcm]⟩
  have hset : ((List.range cs.length).filter fun i =>
        decide (Kept (bestN reverse (some n) keepWithout cs) i) &&
          ((cs[i]?.bind (·.metric)).isSome)).Perm kept := by
    refine (List.perm_ext_iff_of_nodup ((List.filter_sublist).nodup List.nodup_range) hkn).mpr ?_
    intro i
    simp only [List.mem_filter, List.mem_range, Bool.and_eq_true, decide_eq_true_eq]
    constructor
    · rintro ⟨hi, hk, hm⟩
      rw [bestN_core reverse n hn keepWithout cs hlt i hi, hsdef] at hk
      refine hk.resolve_right ?_
      rintro ⟨_, hw⟩
      rw [mem_withoutMetrics] at hw
      obtain ⟨c, hc, hcm⟩ := hw
      simp [hc, hcm] at hm
    · intro hi
      obtain ⟨h1, h2⟩ := hmemk i hi
      refine ⟨h1, ?_, h2⟩
      rw [bestN_core reverse n hn keepWithout cs hlt i h1, hsdef]
      exact .inl hi
  rw [hset.length_eq, ← hlen]
  simp only [kept, List.length_map, List.length_drop, hperm.length_eq]
  omega

/-- **C05**: checkpoints without metrics are kept iff the flag says so (for `1 ≤ n < count`). -/
theorem C05_without_metrics_partial (reverse : Bool) (n : Int) (hn : 0 < n) (keepWithout : Bool)
    (cs : List Ckpt) (hlt : n < cs.length) (i : Nat) (c : Ckpt) (hc : cs[i]? = some c)
    (hm : c.metric = none) :
    Kept (bestN reverse (some n) keepWithout cs) i ↔ keepWithout = true := by
  have hi : i < cs.length := (List.getElem?_eq_some_iff.mp hc).1
  rw [bestN_core reverse n hn keepWithout cs hlt i hi]
  constructor
  · rintro (h | h)
    · obtain ⟨⟨m, i'⟩, hmem, rfl⟩ := List.mem_map.mp h
      have := (List.mergeSort_perm _ _).mem_iff.mp (List.mem_of_mem_drop hmem)
      rw [mem_withMetrics] at this
      obtain ⟨c', hc', hcm⟩ := this
      simp only at hc
      rw [hc] at hc'; cases hc'; simp [hm] at hcm
    · exact h.1
  · intro h
    exact .inr ⟨h, (mem_withoutMetrics cs i).mpr ⟨c, hc, hm⟩⟩

/-- **C05**: with at most `n` checkpoints, or `n = None`, everything is kept; one flag per
checkpoint always (for `n ≥ 0`). -/
theorem C05_few (reverse : Bool) (keepWithout : Bool) (cs : List Ckpt) :
    (∀ n : Int, (cs.length : Int) ≤ n → ∀ i, i < cs.length →
      Kept (bestN reverse (some n) keepWithout cs) i) ∧
    (∀ i, i < cs.length → Kept (bestN reverse none keepWithout cs) i) ∧
    (∀ n, (bestN reverse n keepWithout cs).length = cs.length) := by
  refine ⟨?_, ?_, ?_⟩
  · intro n h i hi
    have : (i : Int) < cs.length := by omega
    simp [bestN, h, Kept, rep_getElem?, this]
  · intro i hi
    have : (i : Int) < cs.length := by omega
    simp [bestN, Kept, rep_getElem?, this]
  · intro n
    unfold bestN
    cases n with
    | none => simp [rep_length]
    | some n => simp only; split; · simp [rep_length]
                · split <;> simp [rep_length]

/-- Finding (C05): with `n = 0` the flag `keep_checkpoints_without_metrics=True` is ignored: a
checkpoint without metrics is dropped. -/
theorem C05_n_zero_drops_metricless_fails :
    bestN false (some 0) true [⟨1,0,none⟩, ⟨2,0,some 3⟩] = [false, false] := by decide

/-- Non-vacuity: metrics 5, none, 7, 5, 1 with `n = 2`: keeps 7 and the *later* 5, plus the
metric-less one. -/
example : bestN false (some 2) true
    [⟨1,0,some 5⟩, ⟨2,0,none⟩, ⟨3,0,some 7⟩, ⟨4,0,some 5⟩, ⟨5,0,some 1⟩] =
    [false, true, true, true, false] := by
  simp [bestN, withMetrics, withoutMetrics, Py.sliceFrom, List.mergeSort, List.MergeSort.Internal.splitInTwo,
    metricLe, List.zipIdx, List.range, List.range.loop]

/-! ## C06 -/

theorem zipOr_getElem? (a b : List Bool) (h : a.length = b.length) (i : Nat) :
    (List.zipWith (· || ·) a b)[i]? = some true ↔ a[i]? = some true ∨ b[i]? = some true := by
  rw [List.getElem?_zipWith]
  by_cases hi : i < a.length
  · have hb : i < b.length := by omega
    simp [hi, hb]
  · have ha : a[i]? = none := List.getElem?_eq_none (by omega)
    have hb : b[i]? = none := List.getElem?_eq_none (by omega)
    simp [ha, hb]

/-- **C06**: with at least one child, each giving one flag per checkpoint, a checkpoint is kept iff
some child keeps it. -/
theorem C06_any_is_union (n : Nat) (rows : List (List Bool)) (hne : rows ≠ [])
    (hlen : ∀ r ∈ rows, r.length = n) :
    ∃ flags, anyPolicy rows = some flags ∧ flags.length = n ∧
      ∀ i, Kept flags i ↔ ∃ r ∈ rows, Kept r i := by
  cases rows with
  | nil => exact absurd rfl hne
  | cons r rs =>
    refine ⟨_, rfl, ?_⟩
    have hr := hlen r (by simp)
    have hrs : ∀ x ∈ rs, x.length = n := fun x hx => hlen x (by simp [hx])
    clear hlen hne
    induction rs generalizing r with
    | nil => simp [hr]
    | cons x rs ih =>
      have hx := hrs x (by simp)
      have hz : (List.zipWith (· || ·) r x).length = n := by simp [hr, hx]
      obtain ⟨h1, h2⟩ := ih (List.zipWith (· || ·) r x) hz (fun y hy => hrs y (by simp [hy]))
      refine ⟨h1, fun i => ?_⟩
      rw [List.foldl_cons, h2]
      unfold Kept
      simp only [List.mem_cons, exists_eq_or_imp, zipOr_getElem? r x (by omega), or_assoc]

/-- **C06**: adding a child policy never drops a checkpoint. -/
theorem C06_any_monotone (n : Nat) (rows : List (List Bool)) (r : List Bool) (hne : rows ≠ [])
    (hlen : ∀ x ∈ rows, x.length = n) (hr : r.length = n) (f g : List Bool)
    (hf : anyPolicy rows = some f) (hg : anyPolicy (rows ++ [r]) = some g) (i : Nat)
    (h : Kept f i) : Kept g i := by
  obtain ⟨f', hf', _, hfk⟩ := C06_any_is_union n rows hne hlen
  obtain ⟨g', hg', _, hgk⟩ := C06_any_is_union n (rows ++ [r]) (by simp) (by
    intro x hx; rcases List.mem_append.mp hx with h | h
    · exact hlen x h
    · simp at h; subst h; exact hr)
  rw [hf] at hf'; cases hf'
  rw [hg] at hg'; cases hg'
  obtain ⟨x, hx, hk⟩ := (hfk i).mp h
  exact (hgk i).mpr ⟨x, by simp [hx], hk⟩

/-- Finding (C06): with no children the result is not a list of flags at all (numpy's `any` of an
empty array is the scalar `False`), although checkpoints may exist. -/
theorem C06_no_children_fails : anyPolicy [] = none := rfl

example : anyPolicy [[true, false, false], [false, false, true]] = some [true, false, true] := by
  decide

/-- **C06** for `CustomSteps`: kept iff the step is listed. -/
theorem C06_customSteps (steps : List Int) (cs : List Ckpt) :
    (customSteps steps cs).length = cs.length ∧
    ∀ i c, cs[i]? = some c → (Kept (customSteps steps cs) i ↔ c.step ∈ steps) := by
  refine ⟨by simp [customSteps], fun i c hc => ?_⟩
  simp [customSteps, Kept, hc]

/-! ## C07 -/

theorem firstRecent_spec (now duration : Int) (cs : List Ckpt) :
    (∀ k, firstRecent now duration cs = some k →
      k < cs.length ∧ (∃ c, cs[k]? = some c ∧ now - c.time ≤ duration) ∧
      ∀ i c, i < k → cs[i]? = some c → ¬ now - c.time ≤ duration) ∧
    (firstRecent now duration cs = none → ∀ c ∈ cs, ¬ now - c.time ≤ duration) := by
  induction cs with
  | nil => simp [firstRecent]
  | cons x cs ih =>
    unfold firstRecent
    split
    · rename_i hx
      refine ⟨?_, by simp⟩
      intro k hk; simp at hk; subst hk
      exact ⟨by simp, ⟨x, by simp, hx⟩, by intro i c hi; omega⟩
    · rename_i hx
      refine ⟨?_, ?_⟩
      · intro k hk
        obtain ⟨k', hk', rfl⟩ := Option.map_eq_some_iff.mp hk
        obtain ⟨h1, h2, h3⟩ := ih.1 k' hk'
        refine ⟨by simp; exact h1, by simpa using h2, ?_⟩
        intro i c hi hc
        cases i with
        | zero => simp at hc; subst hc; exact hx
        | succ i => simp at hc; exact h3 i c (by omega) hc
      · intro hn c hc
        rw [Option.map_eq_none_iff] at hn
        rcases List.mem_cons.mp hc with rfl | hc
        · exact hx
        · exact ih.2 hn c hc

/-- **C07** for times in non-decreasing order: kept iff the age is at most the duration. -/
theorem C07_latestDuration (now duration : Int) (cs : List Ckpt)
    (hmono : cs.Pairwise (fun a b => a.time ≤ b.time)) :
    (latestDuration now duration cs).length = cs.length ∧
    ∀ i c, cs[i]? = some c →
      (Kept (latestDuration now duration cs) i ↔ now - c.time ≤ duration) := by
  obtain ⟨hs, hn⟩ := firstRecent_spec now duration cs
  unfold latestDuration
  cases hf : firstRecent now duration cs with
  | none =>
    refine ⟨by simp [rep_length], fun i c hc => ?_⟩
    have := hn hf c (List.mem_of_getElem? hc)
    simp [Kept, rep_getElem?, this]
  | some k =>
    obtain ⟨h1, ⟨ck, hck, hrec⟩, h3⟩ := hs k hf
    refine ⟨by simp [rep_length]; omega, fun i c hc => ?_⟩
    have hi := (List.getElem?_eq_some_iff.mp hc).1
    unfold Kept
    rw [List.getElem?_append]
    simp only [rep_length, rep_getElem?]
    split
    · rename_i hik
      have hik' : (i : Int) < k := by omega
      have := h3 i c (by omega) hc
      simp [hik', this]
    · rename_i hik
      have hik' : ((i - (k : Int).toNat : Nat) : Int) < (cs.length : Int) - k := by omega
      simp only [hik', if_true, true_iff]
      rcases Nat.lt_or_ge k i with hki | hki
      · rw [List.pairwise_iff_getElem] at hmono
        have := hmono k i h1 hi hki
        rw [(List.getElem?_eq_some_iff.mp hc).2, (List.getElem?_eq_some_iff.mp hck).2] at this
        omega
      · have : i = k := by omega
        subst this; rw [hc] at hck; cases hck; exact hrec

/-- **C07** without the ordering assumption: a checkpoint of age at most the duration is never
dropped (nothing recent is lost), whatever the order. -/
theorem C07_recent_always_kept (now duration : Int) (cs : List Ckpt) (i : Nat) (c : Ckpt)
    (hc : cs[i]? = some c) (hr : now - c.time ≤ duration) :
    Kept (latestDuration now duration cs) i := by
  obtain ⟨hs, hn⟩ := firstRecent_spec now duration cs
  unfold latestDuration
  cases hf : firstRecent now duration cs with
  | none => exact absurd hr (hn hf c (List.mem_of_getElem? hc))
  | some k =>
    obtain ⟨h1, _, h3⟩ := hs k hf
    have hi := (List.getElem?_eq_some_iff.mp hc).1
    have hki : k ≤ i := by
      rcases Nat.lt_or_ge i k with h | h
      · exact absurd hr (h3 i c h hc)
      · exact h
    unfold Kept
    simp only [List.getElem?_append, rep_length, rep_getElem?]
    have : ¬ i < (k : Int).toNat := by omega
    have h' : ((i - (k : Int).toNat : Nat) : Int) < (cs.length : Int) - k := by omega
    simp only [this, if_false, h', if_true]

/-- Finding (C07): when times are not in list order, an old checkpoint listed after a recent one is
kept although it is older than the duration. -/
theorem C07_unordered_fails :
    latestDuration 100 10 [⟨1,95,none⟩, ⟨2,0,none⟩] = [true, true] ∧ ¬ (100 - 0 ≤ (10 : Int)) := by
  decide

example : latestDuration 100 10 [⟨1,80,none⟩, ⟨2,90,none⟩, ⟨3,99,none⟩] = [false, true, true] := by
  decide

end Verif.Policies.Props
