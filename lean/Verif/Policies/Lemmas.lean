import Verif.Policies.Model

/-! Helper lemmas about the preservation policies; the property theorems are in `Props.lean`. -/

namespace Verif.Policies

open Verif
open scoped List

theorem rep_length {α : Type} (x : α) (n : Int) : (Py.rep x n).length = n.toNat := by
  simp [Py.rep]

theorem rep_getElem? {α : Type} (x : α) (n : Int) (i : Nat) :
    (Py.rep x n)[i]? = if (i : Int) < n then some x else none := by
  simp only [Py.rep, List.getElem?_replicate]
  split <;> split <;> first | rfl | omega

/-! ### Trimming -/

/-- Generalisation of `Py.trueIndices` with a starting index. -/
def tIdx (k : Nat) : List Bool → List Nat
  | [] => []
  | b :: l => if b then k :: tIdx (k + 1) l else tIdx (k + 1) l

theorem trueIndices_eq (l : List Bool) : Py.trueIndices l = tIdx 0 l := by
  have h : ∀ (l : List Bool) (k : Nat),
      (l.zipIdx k).filterMap (fun p => if p.1 then some p.2 else none) = tIdx k l := by
    intro l
    induction l with
    | nil => intro k; rfl
    | cons b l ih =>
      intro k
      simp only [List.zipIdx_cons, List.filterMap_cons, tIdx]
      cases b <;> simp [ih]
  exact h l 0

theorem tIdx_length (k : Nat) (l : List Bool) : (tIdx k l).length = l.count true := by
  induction l generalizing k with
  | nil => rfl
  | cons b l ih => cases b <;> simp [tIdx, ih]

theorem mem_take_tIdx (l : List Bool) (k t i : Nat) :
    i ∈ (tIdx k l).take t ↔
      k ≤ i ∧ l[i - k]? = some true ∧ (l.take (i - k)).count true < t := by
  induction l generalizing k t with
  | nil => simp [tIdx]
  | cons b l ih =>
    rcases Nat.lt_trichotomy i k with h | h | h
    · have : ¬ k ≤ i := by omega
      have h2 : ¬ (k + 1 ≤ i) := by omega
      cases b
      · simp [tIdx, ih, this, h2]
      · cases t with
        | zero => simp [this]
        | succ t => simp [tIdx, ih, this, h2]; omega
    · subst h
      have h2 : ¬ (i + 1 ≤ i) := by omega
      cases b
      · simp [tIdx, ih, h2]
      · cases t with
        | zero => simp
        | succ t => simp [tIdx]
    · obtain ⟨d, rfl⟩ : ∃ d, i = k + 1 + d := ⟨i - k - 1, by omega⟩
      have e1 : k + 1 + d - k = d + 1 := by omega
      have e2 : k + 1 + d - (k + 1) = d := by omega
      cases b
      · simp [tIdx, ih, e1, e2]; omega
      · cases t with
        | zero => simp [e1]
        | succ t =>
          have : k + 1 + d ≠ k := by omega
          simp [tIdx, ih, e1, e2, this]; omega

theorem foldl_set_length (b : Bool) (is : List Nat) (r : List Bool) :
    (is.foldl (fun r i => r.set i b) r).length = r.length := by
  induction is generalizing r with
  | nil => rfl
  | cons i is ih => simp [ih]

theorem foldl_set_getElem? (b : Bool) (is : List Nat) (r : List Bool) (i : Nat) :
    (is.foldl (fun r i => r.set i b) r)[i]? =
      if i ∈ is ∧ i < r.length then some b else r[i]? := by
  induction is generalizing r with
  | nil => simp
  | cons j is ih =>
    rw [List.foldl_cons, ih]
    simp only [List.length_set, List.mem_cons, List.getElem?_set]
    by_cases h1 : i ∈ is ∧ i < r.length
    · simp [h1]
    · by_cases h2 : j = i
      · subst h2
        by_cases h3 : j < r.length <;> simp [h3] 
      · have h2' : ¬ i = j := fun h => h2 h.symm
        simp [h1, h2, h2']

theorem count_split (l : List Bool) (i : Nat) (h : l[i]? = some true) :
    l.count true = (l.take i).count true + 1 + (l.drop (i + 1)).count true := by
  obtain ⟨hi, he⟩ := List.getElem?_eq_some_iff.mp h
  conv => lhs; rw [← List.take_append_drop i l]
  rw [List.drop_eq_getElem_cons hi, List.count_append, he]
  simp; omega

theorem trim_length (m : Option Int) (l : List Bool) : (trim m l).length = l.length := by
  unfold trim
  cases m with
  | none => rfl
  | some m => simp only; split <;> simp [foldl_set_length]

/-- With a positive bound, trimming keeps exactly the flags with fewer than `m` set flags after
them. -/
theorem trim_getElem? (m : Int) (hm : 0 < m) (l : List Bool) (i : Nat) :
    (trim (some m) l)[i]? = some true ↔
      l[i]? = some true ∧ ((l.drop (i + 1)).count true : Int) < m := by
  unfold trim
  simp only [trueIndices_eq, tIdx_length]
  split
  · rename_i hgt
    rw [foldl_set_getElem?]
    have hneg : -m < 0 := by omega
    simp only [Py.sliceTo, hneg, if_true, tIdx_length, mem_take_tIdx, Nat.zero_le, true_and,
      Nat.sub_zero]
    by_cases hi : l[i]? = some true
    · have hs := count_split l i hi
      have hlt : i < l.length := (List.getElem?_eq_some_iff.mp hi).1
      simp only [hi, true_and, hlt, and_true]
      split <;> simp <;> omega
    · simp [hi]
  · rename_i hle
    constructor
    · intro hi
      refine ⟨hi, ?_⟩
      have hs := count_split l i hi
      omega
    · exact And.left

theorem trim_count_le (m : Int) (hm : 0 < m) (l : List Bool) :
    (((trim (some m) l).count true : Nat) : Int) ≤ m := by
  -- the flags kept are the last `m` set flags
  unfold trim
  simp only [trueIndices_eq, tIdx_length]
  split
  · rename_i hgt
    have hneg : -m < 0 := by omega
    simp only [Py.sliceTo, hneg, if_true, tIdx_length]
    generalize ht : (((l.count true : Nat) : Int) + -m).toNat = t
    have key : ∀ (l : List Bool) (t k : Nat) (pre : List Bool), pre.length = k →
        (((tIdx k l).take t).foldl (fun r i => r.set i false) (pre ++ l)).count true
          = pre.count true + (l.count true - t) := by
      intro l
      induction l with
      | nil => intro t k pre _; simp [tIdx]
      | cons b l ih =>
        intro t k pre hk
        cases b
        · have := ih t (k + 1) (pre ++ [false]) (by simp [hk])
          simpa [tIdx, List.append_assoc] using this
        · cases t with
          | zero => simp
          | succ t =>
            have h0 : (pre ++ true :: l).set k false = (pre ++ [false]) ++ l := by
              subst hk; simp
            have := ih t (k + 1) (pre ++ [false]) (by simp [hk])
            simp only [tIdx, if_true, List.take_succ_cons, List.foldl_cons, h0, this]
            simp
    have := key l t 0 [] rfl
    simp only [List.nil_append, List.count_nil, Nat.zero_add] at this
    rw [this]; omega
  · omega

end Verif.Policies

namespace Verif.Policies

open Verif
open scoped List

/-! ### Grid buckets of `EveryNStepsClosest` -/

theorem Buckets.find_put (b : Buckets) (k : Int) (v : Nat × Int) (k' : Int) :
    (b.put k v).find k' = if k' = k then some v else b.find k' := by
  induction b with
  | nil =>
    by_cases h : k' = k
    · simp [put, find, h]
    · have : ¬ k = k' := fun e => h e.symm
      simp [put, find, h, this]
  | cons p b ih =>
    obtain ⟨k0, v0⟩ := p
    unfold put
    by_cases h0 : k0 = k
    · simp only [h0, if_true, find]
      by_cases h : k' = k
      · simp [h]
      · have : ¬ k = k' := fun e => h e.symm
        simp [h, this]
    · simp only [h0, if_false, find, ih]
      by_cases h1 : k0 = k'
      · have : ¬ k' = k := by rw [← h1]; exact h0
        simp [h1, this]
      · simp [h1]

theorem Buckets.put_keys (b : Buckets) (k : Int) (v : Nat × Int) (x : Int) :
    x ∈ (b.put k v).map (·.1) ↔ x = k ∨ x ∈ b.map (·.1) := by
  induction b with
  | nil => simp [put]
  | cons p b ih =>
    obtain ⟨k0, v0⟩ := p
    unfold put
    by_cases h0 : k0 = k
    · simp [h0]
    · simp only [h0, if_false, List.map_cons, List.mem_cons, ih]
      constructor
      · rintro (h | h | h)
        · exact .inr (.inl h)
        · exact .inl h
        · exact .inr (.inr h)
      · rintro (h | h | h)
        · exact .inr (.inl h)
        · exact .inl h
        · exact .inr (.inr h)

theorem Buckets.put_nodup (b : Buckets) (k : Int) (v : Nat × Int)
    (h : (b.map (·.1)).Nodup) : ((b.put k v).map (·.1)).Nodup := by
  induction b with
  | nil => simp [put]
  | cons p b ih =>
    obtain ⟨k0, v0⟩ := p
    unfold put
    simp only [List.map_cons, List.nodup_cons] at h
    by_cases h0 : k0 = k
    · subst h0; simpa using h
    · simp only [h0, if_false, List.map_cons, List.nodup_cons]
      refine ⟨?_, ih h.2⟩
      rw [Buckets.put_keys]
      rintro (h' | h')
      · exact h0 h'
      · exact h.1 h'

theorem Buckets.mem_find (b : Buckets) (h : (b.map (·.1)).Nodup) (k : Int) (v : Nat × Int) :
    (k, v) ∈ b ↔ b.find k = some v := by
  induction b with
  | nil => simp [find]
  | cons p b ih =>
    obtain ⟨k0, v0⟩ := p
    simp only [List.map_cons, List.nodup_cons] at h
    simp only [find, List.mem_cons, Prod.mk.injEq]
    by_cases h0 : k0 = k
    · subst h0
      have : ∀ v, (k0, v) ∉ b := fun v hv => h.1 (List.mem_map.mpr ⟨_, hv, rfl⟩)
      simp [this, eq_comm]
    · have : ¬ k = k0 := fun e => h0 e.symm
      simp [h0, this, ih h.2]

/-- `i` is the best checkpoint of its grid bucket: minimal distance, latest among ties. -/
def IsBest (interval : Int) (cs : List Ckpt) (i : Nat) : Prop :=
  ∃ c, cs[i]? = some c ∧ ∀ j d, cs[j]? = some d →
    roundDiv d.step interval = roundDiv c.step interval →
      gridDiff interval c < gridDiff interval d ∨
        (gridDiff interval c = gridDiff interval d ∧ j ≤ i)

/-- Loop invariant of the bucket loop after processing the prefix `done`. -/
structure BInv (interval : Int) (done : List Ckpt) (b : Buckets) : Prop where
  nodup : (b.map (·.1)).Nodup
  sound : ∀ (k : Int) (i : Nat) (d : Int), b.find k = some (i, d) →
    ∃ c : Ckpt, done[i]? = some c ∧ roundDiv c.step interval = k ∧ gridDiff interval c = d ∧
      IsBest interval done i
  complete : ∀ (i : Nat) (c : Ckpt), done[i]? = some c → ∃ v, b.find (roundDiv c.step interval) = some v

theorem BInv.step {interval : Int} {done : List Ckpt} {b : Buckets}
    (h : BInv interval done b) (c : Ckpt) :
    BInv interval (done ++ [c]) (closestStep interval b (c, done.length)) := by
  have hlast : (done ++ [c])[done.length]? = some c := by simp
  have hold : ∀ (i : Nat) (d : Ckpt), done[i]? = some d → (done ++ [c])[i]? = some d := by
    intro i d hi
    have := (List.getElem?_eq_some_iff.mp hi).1
    rw [List.getElem?_append_left this]; exact hi
  have hinv : ∀ (i : Nat) (d : Ckpt), (done ++ [c])[i]? = some d →
      (done[i]? = some d ∧ i < done.length) ∨ (i = done.length ∧ d = c) := by
    intro i d hi
    have hlt := (List.getElem?_eq_some_iff.mp hi).1
    simp only [List.length_append, List.length_cons, List.length_nil] at hlt
    by_cases hd : i < done.length
    · rw [List.getElem?_append_left hd] at hi; exact .inl ⟨hi, hd⟩
    · have : i = done.length := by omega
      subst this; simp at hi; exact .inr ⟨rfl, hi.symm⟩
  -- bests of other buckets stay best
  have hkeep : ∀ (i : Nat) (c' : Ckpt), done[i]? = some c' → IsBest interval done i →
      (roundDiv c.step interval = roundDiv c'.step interval →
        gridDiff interval c' < gridDiff interval c) →
      IsBest interval (done ++ [c]) i := by
    intro i c' hi hb hc
    obtain ⟨c'', hc'', hbest⟩ := hb
    rw [hi] at hc''; cases hc''
    refine ⟨c', hold _ _ hi, ?_⟩
    intro j d hj hbk
    rcases hinv j d hj with ⟨hj', _⟩ | ⟨hj', hd⟩
    · exact hbest j d hj' hbk
    · subst hd; exact .inl (hc hbk)
  unfold closestStep
  simp only
  cases hf : b.find (roundDiv c.step interval) with
  | none =>
    simp only
    have hnone : ∀ (i : Nat) (d : Ckpt), done[i]? = some d → roundDiv d.step interval ≠ roundDiv c.step interval := by
      intro i d hi he
      obtain ⟨v, hv⟩ := h.complete i d hi
      rw [he, hf] at hv; cases hv
    refine ⟨Buckets.put_nodup _ _ _ h.nodup, ?_, ?_⟩
    · intro k i d hk
      rw [Buckets.find_put] at hk
      split at hk
      · rename_i hkk
        simp only [Option.some.injEq, Prod.mk.injEq] at hk
        obtain ⟨rfl, rfl⟩ := hk
        refine ⟨c, hlast, hkk.symm, rfl, c, hlast, ?_⟩
        intro j d hj hbk
        rcases hinv j d hj with ⟨hj', _⟩ | ⟨hj', hd⟩
        · exact absurd hbk (hnone j d hj')
        · subst hd; exact .inr ⟨rfl, by omega⟩
      · rename_i hkk
        obtain ⟨c', hc', hk1, hk2, hk3⟩ := h.sound k i d hk
        exact ⟨c', hold _ _ hc', hk1, hk2, hkeep i c' hc' hk3
          (fun e => absurd e.symm (hnone i c' hc'))⟩
    · intro i d hi
      rw [Buckets.find_put]
      split
      · exact ⟨_, rfl⟩
      · rcases hinv i d hi with ⟨hi', _⟩ | ⟨_, hd⟩
        · exact h.complete i d hi'
        · subst hd; rename_i hne; exact absurd rfl hne
  | some v =>
    obtain ⟨i0, d0⟩ := v
    simp only
    obtain ⟨c0, hc0, hb0, hd0, hbest0⟩ := h.sound _ _ _ hf
    split
    · rename_i hle
      refine ⟨Buckets.put_nodup _ _ _ h.nodup, ?_, ?_⟩
      · intro k i d hk
        rw [Buckets.find_put] at hk
        split at hk
        · rename_i hkk
          simp only [Option.some.injEq, Prod.mk.injEq] at hk
          obtain ⟨rfl, rfl⟩ := hk
          refine ⟨c, hlast, hkk.symm, rfl, c, hlast, ?_⟩
          intro j d hj hbk
          rcases hinv j d hj with ⟨hj', hjl⟩ | ⟨hj', hd⟩
          · obtain ⟨c0', hc0', hb⟩ := hbest0
            rw [hc0] at hc0'; cases hc0'
            have := hb j d hj' (by rw [hbk, hb0])
            omega
          · subst hd; exact .inr ⟨rfl, by omega⟩
        · rename_i hkk
          obtain ⟨c', hc', hk1, hk2, hk3⟩ := h.sound k i d hk
          refine ⟨c', hold _ _ hc', hk1, hk2, hkeep i c' hc' hk3 ?_⟩
          intro e; exact absurd (hk1.symm.trans e.symm) hkk
      · intro i d hi
        rw [Buckets.find_put]
        split
        · exact ⟨_, rfl⟩
        · rcases hinv i d hi with ⟨hi', _⟩ | ⟨_, hd⟩
          · exact h.complete i d hi'
          · subst hd; rename_i hne; exact absurd rfl hne
    · rename_i hgt
      refine ⟨h.nodup, ?_, ?_⟩
      · intro k i d hk
        obtain ⟨c', hc', hk1, hk2, hk3⟩ := h.sound k i d hk
        refine ⟨c', hold _ _ hc', hk1, hk2, hkeep i c' hc' hk3 ?_⟩
        intro e
        have hkeq : k = roundDiv c.step interval := hk1.symm.trans e.symm
        rw [hkeq, hf] at hk
        simp only [Option.some.injEq, Prod.mk.injEq] at hk
        omega
      · intro i d hi
        rcases hinv i d hi with ⟨hi', _⟩ | ⟨_, hd⟩
        · exact h.complete i d hi'
        · subst hd; exact ⟨_, hf⟩

theorem binv_fold (interval : Int) (rest done : List Ckpt) (b : Buckets)
    (h : BInv interval done b) :
    BInv interval (done ++ rest) ((rest.zipIdx done.length).foldl (closestStep interval) b) := by
  induction rest generalizing done b with
  | nil => simpa using h
  | cons c rest ih =>
    have := ih (done ++ [c]) _ (h.step c)
    simpa [List.zipIdx_cons] using this

theorem binv_all (interval : Int) (cs : List Ckpt) :
    BInv interval cs (cs.zipIdx.foldl (closestStep interval) []) := by
  have h0 : BInv interval [] [] := ⟨by simp, by simp [Buckets.find], by simp⟩
  simpa using binv_fold interval cs [] [] h0

theorem mem_bestIndices (interval : Int) (cs : List Ckpt) (i : Nat) :
    i ∈ (cs.zipIdx.foldl (closestStep interval) []).map (·.2.1) ↔ IsBest interval cs i := by
  have h := binv_all interval cs
  constructor
  · intro hi
    obtain ⟨⟨k, i', d⟩, hm, rfl⟩ := List.mem_map.mp hi
    rw [Buckets.mem_find _ h.nodup] at hm
    obtain ⟨_, _, _, _, hb⟩ := h.sound _ _ _ hm
    exact hb
  · rintro ⟨c, hc, hb⟩
    obtain ⟨⟨i', d'⟩, hv⟩ := h.complete i c hc
    obtain ⟨c', hc', hk', hd', c'', hc'', hb'⟩ := h.sound _ _ _ hv
    rw [hc'] at hc''; cases hc''
    have h1 := hb i' c' hc' hk'
    have h2 := hb' i c hc hk'.symm
    have : i = i' := by omega
    subst this
    exact List.mem_map.mpr ⟨_, (Buckets.mem_find _ h.nodup _ _).mpr hv, rfl⟩

/-- `roundDiv a b` is a nearest multiple: no multiple of `b` is closer to `a`. -/
theorem roundDiv_nearest (a b : Int) (hb : b ≠ 0) :
    2 * pyAbs (a - roundDiv a b * b) ≤ pyAbs b := by
  unfold roundDiv pyAbs
  by_cases h : b < 0
  · simp only [h, if_true]
    have h1 := Int.mul_ediv_add_emod (-a) (-b)
    have h2 := Int.emod_nonneg (-a) (show -b ≠ 0 by omega)
    have h3 := Int.emod_lt_of_pos (-a) (show 0 < -b by omega)
    generalize -a / -b = q at *
    generalize -a % -b = r at *
    have e1 : q * b = a + r := by rw [Int.mul_comm]; rw [Int.neg_mul] at h1; omega
    have e2 : (q + 1) * b = a + r + b := by rw [Int.add_mul, e1]; omega
    split
    · rw [e1]; split <;> omega
    · split
      · rw [e2]; split <;> omega
      · split
        · rw [e1]; split <;> omega
        · rw [e2]; split <;> omega
  · simp only [h, if_false]
    have h1 := Int.mul_ediv_add_emod a b
    have h2 := Int.emod_nonneg a hb
    have h3 := Int.emod_lt_of_pos a (show 0 < b by omega)
    generalize a / b = q at *
    generalize a % b = r at *
    have e1 : q * b = a - r := by rw [Int.mul_comm]; omega
    have e2 : (q + 1) * b = a - r + b := by rw [Int.add_mul, e1]; omega
    split
    · rw [e1]; split <;> omega
    · split
      · rw [e2]; split <;> omega
      · split
        · rw [e1]; split <;> omega
        · rw [e2]; split <;> omega

/-! ### BestN -/

theorem mem_withMetrics (cs : List Ckpt) (m : Int) (i : Nat) :
    (m, i) ∈ withMetrics cs ↔ ∃ c, cs[i]? = some c ∧ c.metric = some m := by
  unfold withMetrics
  simp only [List.mem_filterMap, Option.map_eq_some_iff, Prod.mk.injEq, Prod.exists]
  constructor
  · rintro ⟨c, k, hk, m', hm, rfl, rfl⟩
    rw [List.mem_zipIdx_iff_getElem?] at hk
    exact ⟨c, hk, hm⟩
  · rintro ⟨c, hc, hm⟩
    exact ⟨c, i, by rw [List.mem_zipIdx_iff_getElem?]; exact hc, m, hm, rfl, rfl⟩

theorem mem_withoutMetrics (cs : List Ckpt) (i : Nat) :
    i ∈ withoutMetrics cs ↔ ∃ c, cs[i]? = some c ∧ c.metric = none := by
  unfold withoutMetrics
  simp only [List.mem_filterMap, Prod.exists]
  constructor
  · rintro ⟨c, k, hk, hm⟩
    rw [List.mem_zipIdx_iff_getElem?] at hk
    refine ⟨c, ?_⟩
    cases hc : c.metric with
    | none => simp [hc] at hm; subst hm; exact ⟨hk, rfl⟩
    | some v => simp [hc] at hm
  · rintro ⟨c, hc, hm⟩
    exact ⟨c, i, by rw [List.mem_zipIdx_iff_getElem?]; exact hc, by simp [hm]⟩

/-- The pairs are listed by increasing position. -/
theorem withMetrics_pairwise (cs : List Ckpt) :
    (withMetrics cs).Pairwise (fun a b => a.2 < b.2) := by
  have h : ∀ (cs : List Ckpt) (k : Nat),
      ((cs.zipIdx k).filterMap (fun p => p.1.metric.map fun m => (m, p.2))).Pairwise
        (fun (a b : Int × Nat) => a.2 < b.2) ∧
      ∀ p ∈ (cs.zipIdx k).filterMap (fun p => p.1.metric.map fun m => (m, p.2)), k ≤ p.2 := by
    intro cs
    induction cs with
    | nil => intro k; simp
    | cons c cs ih =>
      intro k
      obtain ⟨h1, h2⟩ := ih (k + 1)
      simp only [List.zipIdx_cons, List.filterMap_cons]
      cases c.metric with
      | none =>
        simp only [Option.map_none]
        exact ⟨h1, fun p hp => by have := h2 p hp; omega⟩
      | some m =>
        simp only [Option.map_some, List.pairwise_cons, List.mem_cons]
        refine ⟨⟨fun p hp => by have := h2 p hp; omega, h1⟩, ?_⟩
        rintro p (rfl | hp)
        · simp
        · have := h2 p hp; omega
  exact (h cs 0).1

theorem metricLe_trans (r : Bool) (a b c : Int × Nat) :
    metricLe r a b = true → metricLe r b c = true → metricLe r a c = true := by
  unfold metricLe; cases r <;> simp <;> omega

theorem metricLe_total (r : Bool) (a b : Int × Nat) : (metricLe r a b || metricLe r b a) = true := by
  unfold metricLe; cases r <;> simp <;> omega

/-- `a` precedes `b` in the sorted order: strictly smaller key, or equal keys and earlier. -/
def Before (r : Bool) (a b : Int × Nat) : Prop :=
  (if r then b.1 < a.1 else a.1 < b.1) ∨ (a.1 = b.1 ∧ a.2 < b.2)

theorem pair_sublist_or {α : Type} {l : List α} {a b : α} (ha : a ∈ l) (hb : b ∈ l) (hne : a ≠ b) :
    [a, b] <+ l ∨ [b, a] <+ l := by
  induction l with
  | nil => simp at ha
  | cons x l ih =>
    rcases List.mem_cons.mp ha with rfl | ha'
    · rcases List.mem_cons.mp hb with rfl | hb'
      · exact absurd rfl hne
      · left; exact (List.singleton_sublist.mpr hb').cons_cons _
    · rcases List.mem_cons.mp hb with rfl | hb'
      · right; exact (List.singleton_sublist.mpr ha').cons_cons _
      · rcases ih ha' hb' with h | h
        · exact .inl (h.cons _)
        · exact .inr (h.cons _)

theorem pair_sublist_antisymm {α : Type} {l : List α} {a b : α} (hn : l.Nodup)
    (h1 : [a, b] <+ l) (h2 : [b, a] <+ l) : False := by
  induction l with
  | nil => cases h1
  | cons x l ih =>
    rw [List.nodup_cons] at hn
    cases h1 with
    | cons _ h1 =>
      cases h2 with
      | cons _ h2 => exact ih hn.2 h1 h2
      | cons_cons _ h2 => exact hn.1 (h1.subset (by simp))
    | cons_cons _ h1 =>
      cases h2 with
      | cons _ h2 => exact hn.1 (h2.subset (by simp))
      | cons_cons _ h2 => exact hn.1 (h1.subset (by simp))

theorem sorted_pairwise (r : Bool) (cs : List Ckpt) :
    ((withMetrics cs).mergeSort (metricLe r)).Pairwise (Before r) := by
  have hs := List.pairwise_mergeSort (le := metricLe r) (metricLe_trans r) (metricLe_total r)
    (withMetrics cs)
  have hp := List.mergeSort_perm (withMetrics cs) (metricLe r)
  have hidx := withMetrics_pairwise cs
  have hnd : (withMetrics cs).Nodup := hidx.imp (fun {a b} h e => by subst e; omega)
  have hnd' : ((withMetrics cs).mergeSort (metricLe r)).Nodup := hp.symm.nodup hnd
  rw [List.pairwise_iff_forall_sublist] at hs ⊢
  intro a b hab
  have hle := hs hab
  by_cases hk : a.1 = b.1
  · -- equal keys: stability
    right
    refine ⟨hk, ?_⟩
    have ha : a ∈ withMetrics cs := hp.mem_iff.mp (hab.subset (by simp))
    have hb : b ∈ withMetrics cs := hp.mem_iff.mp (hab.subset (by simp))
    have hne : a ≠ b := by
      intro e; subst e
      have := hab.nodup hnd'
      simp at this
    rcases pair_sublist_or ha hb hne with h | h
    · exact List.pairwise_iff_forall_sublist.mp hidx h
    · exfalso
      have hleba : metricLe r b a = true := by unfold metricLe; cases r <;> simp <;> omega
      have hba' := List.pair_sublist_mergeSort (metricLe_trans r) (metricLe_total r) hleba h
      exact pair_sublist_antisymm hnd' hab hba'
  · left
    unfold metricLe at hle
    cases r <;> simp at hle ⊢ <;> omega

end Verif.Policies
