import Verif.Emergency.Ranks

/-!
# C105: ranks and peers

`Grid`: on Pathways the workers are all the pairs of some tasks and some slices.
-/

namespace Verif.Emergency.Ranks

/-- The keys are exactly the pairs of the tasks `T` and the `n` slices `S`. -/
def Grid (ws : List Worker) (n : Nat) : Prop :=
  ∃ T S : List Nat, S.Nodup ∧ S.length = n ∧ (∀ w ∈ ws, ∃ t s, w.key = .taskSlice t s ∧ t ∈ T ∧ s ∈ S) ∧
    ∀ t ∈ T, ∀ s ∈ S, ∃ w ∈ ws, w.key = .taskSlice t s

/-! ## Sorting -/

theorem insertBy_perm {α : Type} (le : α → α → Bool) (x : α) (l : List α) : (insertBy le x l).Perm (x :: l) := by
  induction l with
  | nil => exact .refl _
  | cons y l ih =>
    simp only [insertBy]
    cases le x y with
    | true => exact .refl _
    | false => exact (ih.cons y).trans (.swap x y l)

theorem sortBy_perm {α : Type} (le : α → α → Bool) (l : List α) : (sortBy le l).Perm l := by
  induction l with
  | nil => exact .refl _
  | cons x l ih => exact (insertBy_perm le x _).trans (ih.cons x)

theorem insertBy_sorted {α : Type} {le : α → α → Bool} (ht : ∀ a b, le a b = true ∨ le b a = true)
    (htr : ∀ a b c, le a b = true → le b c = true → le a c = true) (x : α) {l : List α}
    (h : l.Pairwise (fun a b => le a b = true)) : (insertBy le x l).Pairwise (fun a b => le a b = true) := by
  induction l with
  | nil => simp [insertBy]
  | cons y l ih =>
    rw [List.pairwise_cons] at h
    simp only [insertBy]
    cases hxy : le x y with
    | true =>
      simp only [if_true]
      refine List.pairwise_cons.2 ⟨?_, List.pairwise_cons.2 h⟩
      intro z hz
      rcases List.mem_cons.1 hz with hz | hz
      · rw [hz]; exact hxy
      · exact htr _ _ _ hxy (h.1 z hz)
    | false =>
      simp only [Bool.false_eq_true, if_false]
      refine List.pairwise_cons.2 ⟨?_, ih h.2⟩
      intro z hz
      rcases List.mem_cons.1 ((insertBy_perm le x l).mem_iff.1 hz) with hz | hz
      · rw [hz]
        rcases ht x y with h1 | h1
        · rw [hxy] at h1; cases h1
        · exact h1
      · exact h.1 z hz

theorem sortBy_sorted {α : Type} {le : α → α → Bool} (ht : ∀ a b, le a b = true ∨ le b a = true)
    (htr : ∀ a b c, le a b = true → le b c = true → le a c = true) (l : List α) :
    (sortBy le l).Pairwise (fun a b => le a b = true) := by
  induction l with
  | nil => simp [sortBy]
  | cons x l ih => exact insertBy_sorted ht htr x ih

/-- Sorting forgets the order when equal keys mean equal elements of the list. -/
theorem sortBy_eq {α : Type} {le : α → α → Bool} (ht : ∀ a b, le a b = true ∨ le b a = true)
    (htr : ∀ a b c, le a b = true → le b c = true → le a c = true) {l m : List α} (hp : l.Perm m)
    (ha : ∀ a ∈ l, ∀ b ∈ l, le a b = true → le b a = true → a = b) : sortBy le l = sortBy le m := by
  have hp' := ((sortBy_perm le l).trans hp).trans (sortBy_perm le m).symm
  refine hp'.eq_of_pairwise ?_ (sortBy_sorted ht htr l) (sortBy_sorted ht htr m)
  intro a b h1 h2 h3 h4
  exact ha a ((sortBy_perm le l).mem_iff.1 h1) b (hp.mem_iff.2 ((sortBy_perm le m).mem_iff.1 h2)) h3 h4

theorem sortNat_eq {l m : List Nat} (hp : l.Perm m) :
    sortBy (fun a b => decide (a ≤ b)) l = sortBy (fun a b => decide (a ≤ b)) m := by
  refine sortBy_eq ?_ ?_ hp ?_
  · intro a b; simp; omega
  · intro a b c; simp; omega
  · intro a _ b _; simp; omega

/-! ## Standard path -/

theorem getElem?_inj' {l : List Nat} (h : l.Nodup) {i j : Nat} {x : Nat} (hi : l[i]? = some x) (hj : l[j]? = some x) :
    i = j := by
  have hlt : i < l.length := (List.getElem?_eq_some_iff.1 hi).1
  exact (List.getElem?_inj hlt h).1 (hi.trans hj.symm)

theorem collect_mem {ranks : List Nat} {per me k : Nat} {x : Nat} :
    x ∈ collectPeers ranks per me k ↔ ∃ i, i < k ∧ i * per + me % per ≠ me ∧ ranks[i * per + me % per]? = some x := by
  simp only [collectPeers, List.mem_filterMap, List.mem_range]
  constructor
  · rintro ⟨i, hi, h⟩
    by_cases hne : i * per + me % per ≠ me
    · rw [if_pos hne] at h; exact ⟨i, hi, hne, h⟩
    · rw [if_neg hne] at h; cases h
  · rintro ⟨i, hi, hne, h⟩
    exact ⟨i, hi, by rw [if_pos hne]; exact h⟩

theorem collect_nodup {ranks : List Nat} (hn : ranks.Nodup) {per : Nat} (hper : 0 < per) (me k : Nat) :
    (collectPeers ranks per me k).Nodup := by
  simp only [collectPeers, List.Nodup, List.pairwise_filterMap]
  refine List.Pairwise.imp ?_ (List.nodup_range (n := k))
  intro i j hij x hx y hy hxy
  subst hxy
  by_cases h1 : i * per + me % per ≠ me
  · rw [if_pos h1] at hx
    by_cases h2 : j * per + me % per ≠ me
    · rw [if_pos h2] at hy
      have := getElem?_inj' hn hx hy
      exact hij (Nat.eq_of_mul_eq_mul_right hper (by omega))
    · rw [if_neg h2] at hy; cases hy
  · rw [if_neg h1] at hx; cases hx

theorem filterMap_length {α β : Type} (f : α → Option β) (g : α → Bool) (l : List α)
    (h : ∀ a ∈ l, (f a).isSome = g a) : (l.filterMap f).length = l.countP g := by
  induction l with
  | nil => rfl
  | cons a l ih =>
    have ih' := ih (fun b hb => h b (List.mem_cons_of_mem _ hb))
    have ha := h a (by simp)
    cases hf : f a with
    | none => rw [List.filterMap_cons_none hf, ih']; rw [hf] at ha; simp [← ha]
    | some b => rw [List.filterMap_cons_some hf, List.length_cons, ih']; rw [hf] at ha; simp [← ha]

theorem countP_range_ne (k a : Nat) (ha : a < k) : (List.range k).countP (fun i => decide (i ≠ a)) = k - 1 := by
  have key : ∀ k, (List.range k).countP (fun i => decide (i ≠ a)) = if a < k then k - 1 else k := by
    intro k
    induction k with
    | zero => simp
    | succ k ih =>
      rw [List.range_succ, List.countP_append, ih]
      by_cases h : k = a
      · subst h; simp
      · simp only [List.countP_singleton, ne_eq, h, not_false_eq_true, decide_true, if_true]
        by_cases h2 : a < k
        · rw [if_pos h2, if_pos (by omega)]; omega
        · rw [if_neg h2, if_neg (by omega)]
  rw [key, if_pos ha]

/-- **C105** (standard path): with a one-to-one map from process indices to ranks and a number of slices that divides the number
of processes, every process writes its own rank, and its peers are exactly the ranks of the other processes at its position:
one for every other slice, without repetition. -/
theorem C105_standard {n k : Nat} (hk : 0 < k) (hkn : n % k = 0) {ranks : List Nat} (hl : ranks.length = n)
    (hr : ∀ r ∈ ranks, r < n) (hnd : ranks.Nodup) {me : Nat} (hme : me < n) :
    ∃ rank peers, standard n k ranks me = .ok (rank, peers) ∧ ranks[me]? = some rank ∧
      (∀ j r, ranks[j]? = some r → (r ∈ peers ↔ j ≠ me ∧ j % (n / k) = me % (n / k))) ∧
      peers.Nodup ∧ peers.length = k - 1 ∧ ∀ r ∈ peers, r ∈ ranks := by
  have hper : 0 < n / k := Nat.div_pos (Nat.le_of_dvd (by omega) (Nat.dvd_of_mod_eq_zero hkn)) hk
  have hprod : n = k * (n / k) := by
    have := Nat.div_add_mod n k; omega
  have hin : ∀ i, i < k → i * (n / k) + me % (n / k) < n := by
    intro i hi
    have h1 := Nat.mod_lt me hper
    have h2 : (i + 1) * (n / k) ≤ k * (n / k) := Nat.mul_le_mul_right _ hi
    rw [Nat.add_mul] at h2
    omega
  have hrk : ranks[me]? = some (ranks.getD me 0) := by
    rw [List.getD_eq_getElem?_getD]
    rw [List.getElem?_eq_getElem (by omega)]
    rfl
  have hmem : ∀ j r, ranks[j]? = some r →
      (r ∈ collectPeers ranks (n / k) me k ↔ j ≠ me ∧ j % (n / k) = me % (n / k)) := by
    intro j r hj
    have hjn : j < n := by rw [← hl]; exact (List.getElem?_eq_some_iff.1 hj).1
    rw [collect_mem]
    constructor
    · rintro ⟨i, hi, hne, h⟩
      have := getElem?_inj' hnd h hj
      subst this
      refine ⟨hne, ?_⟩
      rw [Nat.mul_comm, Nat.mul_add_mod]
      exact Nat.mod_mod _ _
    · rintro ⟨h1, h2⟩
      have h3 : j / (n / k) * (n / k) + me % (n / k) = j := by
        rw [← h2]
        have := Nat.div_add_mod j (n / k)
        rw [Nat.mul_comm] at this
        exact this
      refine ⟨j / (n / k), ?_, by rw [h3]; exact h1, by rw [h3]; exact hj⟩
      exact (Nat.div_lt_iff_lt_mul hper).2 (by omega)
  have hnodup := collect_nodup hnd hper me k
  have hsub : ∀ r ∈ collectPeers ranks (n / k) me k, r ∈ ranks := by
    intro r h
    obtain ⟨i, _, _, h2⟩ := collect_mem.1 h
    exact List.mem_of_getElem? h2
  have hlen : (collectPeers ranks (n / k) me k).length = k - 1 := by
    have hme' : me / (n / k) < k := (Nat.div_lt_iff_lt_mul hper).2 (by omega)
    have h4 : me / (n / k) * (n / k) + me % (n / k) = me := by
      have := Nat.div_add_mod me (n / k)
      rw [Nat.mul_comm] at this
      exact this
    rw [← countP_range_ne k (me / (n / k)) hme']
    refine filterMap_length _ _ _ ?_
    intro i hi
    rw [List.mem_range] at hi
    by_cases hc : i = me / (n / k)
    · subst hc
      simp [h4]
    · have hne : i * (n / k) + me % (n / k) ≠ me := by
        intro hx
        apply hc
        have : i * (n / k) = me / (n / k) * (n / k) := by omega
        exact Nat.eq_of_mul_eq_mul_right hper this
      rw [if_pos hne, List.getElem?_eq_getElem (by rw [hl]; exact hin i hi)]
      simp [hc]
  refine ⟨ranks.getD me 0, collectPeers ranks (n / k) me k, ?_, hrk, hmem, hnodup, hlen, hsub⟩
  have hv : validMapping ranks n = true := by
    simp [validMapping, hl, hnd]
    exact hr
  have hv2 : validRanks n (ranks.getD me 0) (collectPeers ranks (n / k) me k) = true := by
    simp only [validRanks, Bool.and_eq_true, decide_eq_true_eq, List.all_eq_true, Bool.not_eq_true',
      List.contains_eq_mem, decide_eq_false_iff_not]
    refine ⟨⟨⟨⟨by omega, hr _ (List.mem_of_getElem? hrk)⟩, fun r hx => hr r (hsub r hx)⟩, ?_⟩, hnodup⟩
    intro hx
    exact ((hmem me _ hrk).1 hx).1 rfl
  simp only [standard, hkn, hv, hv2, ne_eq, not_true_eq_false, if_false, hme, if_true]

/-- **C105** (mutual): peers are mutual, on all processes that use the same map. -/
theorem C105_mutual {n k : Nat} (hk : 0 < k) (hkn : n % k = 0) {ranks : List Nat} (hl : ranks.length = n)
    (hr : ∀ r ∈ ranks, r < n) (hnd : ranks.Nodup) {i j : Nat} (hi : i < n) (hj : j < n)
    {ri rj : Nat} {pi pj : List Nat} (h1 : standard n k ranks i = .ok (ri, pi))
    (h2 : standard n k ranks j = .ok (rj, pj)) : rj ∈ pi ↔ ri ∈ pj := by
  obtain ⟨a, p, ha, ha1, ha2, _⟩ := C105_standard hk hkn hl hr hnd hi
  obtain ⟨b, q, hb, hb1, hb2, _⟩ := C105_standard hk hkn hl hr hnd hj
  rw [ha] at h1; cases h1
  rw [hb] at h2; cases h2
  rw [ha2 j rj hb1, hb2 i ri ha1]
  constructor
  · rintro ⟨x, y⟩; exact ⟨fun h => x h.symm, y.symm⟩
  · rintro ⟨x, y⟩; exact ⟨fun h => x h.symm, y.symm⟩

/-- **C105** (refusal): whatever is written was computed from a one-to-one map and a divisor. -/
theorem C105_standard_refuses {n k : Nat} {ranks : List Nat} {me : Nat} {x : Nat × List Nat}
    (h : standard n k ranks me = .ok x) :
    n % k = 0 ∧ me < n ∧ ranks.length = n ∧ (∀ r ∈ ranks, r < n) ∧ ranks.Nodup := by
  simp only [standard] at h
  by_cases h1 : n % k ≠ 0
  · rw [if_pos h1] at h; cases h
  rw [if_neg h1] at h
  by_cases h2 : ¬ me < n
  · rw [if_pos h2] at h; cases h
  rw [if_neg h2] at h
  by_cases h3 : ¬ validMapping ranks n = true
  · rw [if_pos h3] at h; cases h
  have h3 : validMapping ranks n = true := by
    cases hv : validMapping ranks n with
    | true => rfl
    | false => simp [hv] at h3
  simp only [validMapping, Bool.and_eq_true, decide_eq_true_eq, List.all_eq_true] at h3
  exact ⟨by omega, by omega, h3.1.1, h3.1.2, h3.2⟩

/-- **C105** (other slices): if the processes of a slice have consecutive indices (process `j` is in slice `j / (n / k)`), a
process has exactly one peer in every other slice and none in its own. -/
theorem C105_one_per_slice {n k : Nat} (hk : 0 < k) (hkn : n % k = 0) {ranks : List Nat} (hl : ranks.length = n)
    (hr : ∀ r ∈ ranks, r < n) (hnd : ranks.Nodup) {me : Nat} (hme : me < n) {rank : Nat} {peers : List Nat}
    (h : standard n k ranks me = .ok (rank, peers)) :
    (∀ j r, ranks[j]? = some r → r ∈ peers → j / (n / k) ≠ me / (n / k)) ∧
    ∀ s, s < k → s ≠ me / (n / k) →
      ∃ j r, ranks[j]? = some r ∧ r ∈ peers ∧ j / (n / k) = s ∧
        ∀ j' r', ranks[j']? = some r' → r' ∈ peers → j' / (n / k) = s → j' = j := by
  have hper : 0 < n / k := Nat.div_pos (Nat.le_of_dvd (by omega) (Nat.dvd_of_mod_eq_zero hkn)) hk
  have hprod : n = k * (n / k) := by
    have := Nat.div_add_mod n k; omega
  obtain ⟨a, p, ha, ha1, ha2, _⟩ := C105_standard hk hkn hl hr hnd hme
  rw [ha] at h; cases h
  have hdm : ∀ x y : Nat, x / (n / k) = y / (n / k) → x % (n / k) = y % (n / k) → x = y := by
    intro x y h1 h2
    have h3 := Nat.div_add_mod x (n / k)
    have h4 := Nat.div_add_mod y (n / k)
    rw [h1, h2] at h3
    omega
  constructor
  · intro j r hj hp hx
    obtain ⟨h1, h2⟩ := (ha2 j r hj).1 hp
    exact h1 (hdm j me hx h2)
  · intro s hs hne
    have hml := Nat.mod_lt me hper
    have hb : s * (n / k) + me % (n / k) < n := by
      have h2 : (s + 1) * (n / k) ≤ k * (n / k) := Nat.mul_le_mul_right _ hs
      rw [Nat.add_mul] at h2
      omega
    have hdiv : (s * (n / k) + me % (n / k)) / (n / k) = s := by
      rw [Nat.mul_comm, Nat.mul_add_div hper, Nat.div_eq_of_lt hml]; rfl
    have hmod : (s * (n / k) + me % (n / k)) % (n / k) = me % (n / k) := by
      rw [Nat.mul_comm, Nat.mul_add_mod]; exact Nat.mod_mod _ _
    have hg : ranks[s * (n / k) + me % (n / k)]? = some (ranks[s * (n / k) + me % (n / k)]'(by omega)) :=
      List.getElem?_eq_getElem (by omega)
    refine ⟨_, _, hg, (ha2 _ _ hg).2 ⟨?_, hmod⟩, hdiv, ?_⟩
    · intro hx
      rw [← hx, hdiv] at hne
      exact hne rfl
    · intro j' r' hj' hp' hs'
      obtain ⟨_, h2⟩ := (ha2 j' r' hj').1 hp'
      exact hdm _ _ (hs'.trans hdiv.symm) (h2.trans hmod.symm)

/-- **C105** (finding): which slice a process is in is not looked at. If the processes are dealt to the slices in turn (process
`j` is in slice `j % k`, with a multiple of `k` processes per slice) all peers of every process are in its own slice: losing
a slice loses its checkpoints. -/
theorem C105_interleaved_slices_fails {n k : Nat} (hk : 0 < k) (hkn : n % k = 0) (hkk : (n / k) % k = 0)
    {ranks : List Nat} (hl : ranks.length = n) (hr : ∀ r ∈ ranks, r < n) (hnd : ranks.Nodup) {me : Nat} (hme : me < n)
    {rank : Nat} {peers : List Nat} (h : standard n k ranks me = .ok (rank, peers)) :
    ∀ j r, ranks[j]? = some r → r ∈ peers → j % k = me % k := by
  intro j r hj hp
  obtain ⟨a, p, ha, _, ha2, _⟩ := C105_standard hk hkn hl hr hnd hme
  rw [ha] at h; cases h
  obtain ⟨_, h2⟩ := (ha2 j r hj).1 hp
  have hd : k ∣ n / k := Nat.dvd_of_mod_eq_zero hkk
  rw [← Nat.mod_mod_of_dvd j hd, h2, Nat.mod_mod_of_dvd me hd]

/-! ## Pathways: grouping -/

def idsOf (ds : List (Key × Nat)) (k : Key) : List Nat := (ds.filter fun d => d.1 == k).map (·.2)

structure GroupOk (g : List (Key × List Nat)) (ds : List (Key × Nat)) : Prop where
  nodup : (g.map (·.1)).Nodup
  mem : ∀ k, k ∈ g.map (·.1) ↔ k ∈ ds.map (·.1)
  ids : ∀ k l, (k, l) ∈ g → l = idsOf ds k

theorem addDevice_keys (g : List (Key × List Nat)) (k : Key) (i : Nat) (x : Key) :
    x ∈ (addDevice g k i).map (·.1) ↔ x ∈ g.map (·.1) ∨ x = k := by
  induction g with
  | nil => simp [addDevice]
  | cons p r ih =>
    obtain ⟨k', l⟩ := p
    simp only [addDevice]
    by_cases h : k' = k
    · rw [if_pos h]
      simp only [List.map_cons, List.mem_cons]
      constructor
      · exact Or.inl
      · rintro (h1 | h1)
        · exact h1
        · exact .inl (h1.trans h.symm)
    · rw [if_neg h]
      simp only [List.map_cons, List.mem_cons, ih]
      constructor
      · rintro (h1 | h1 | h1)
        · exact .inl (.inl h1)
        · exact .inl (.inr h1)
        · exact .inr h1
      · rintro ((h1 | h1) | h1)
        · exact .inl h1
        · exact .inr (.inl h1)
        · exact .inr (.inr h1)

theorem addDevice_nodup {g : List (Key × List Nat)} (h : (g.map (·.1)).Nodup) (k : Key) (i : Nat) :
    ((addDevice g k i).map (·.1)).Nodup := by
  induction g with
  | nil => simp [addDevice]
  | cons p r ih =>
    obtain ⟨k', l⟩ := p
    simp only [List.map_cons, List.nodup_cons] at h
    simp only [addDevice]
    by_cases hk : k' = k
    · rw [if_pos hk]
      simp only [List.map_cons, List.nodup_cons]
      exact h
    · rw [if_neg hk]
      simp only [List.map_cons, List.nodup_cons]
      refine ⟨?_, ih h.2⟩
      rw [addDevice_keys]
      rintro (h1 | h1)
      · exact h.1 h1
      · exact hk h1

theorem addDevice_mem {g : List (Key × List Nat)} (hn : (g.map (·.1)).Nodup) {k : Key} {i : Nat} {x : Key} {l : List Nat}
    (h : (x, l) ∈ addDevice g k i) :
    (x ≠ k ∧ (x, l) ∈ g) ∨ (x = k ∧ ∃ l0, l = l0 ++ [i] ∧ ((k, l0) ∈ g ∨ (l0 = [] ∧ k ∉ g.map (·.1)))) := by
  induction g with
  | nil =>
    simp only [addDevice, List.mem_singleton, Prod.mk.injEq] at h
    exact .inr ⟨h.1, [], h.2, .inr ⟨rfl, by simp⟩⟩
  | cons p r ih =>
    obtain ⟨k', l'⟩ := p
    simp only [List.map_cons, List.nodup_cons] at hn
    simp only [addDevice] at h
    by_cases hk : k' = k
    · rw [if_pos hk] at h
      subst hk
      rcases List.mem_cons.1 h with h' | h'
      · simp only [Prod.mk.injEq] at h'
        exact .inr ⟨h'.1, l', h'.2, .inl (by simp)⟩
      · refine .inl ⟨?_, List.mem_cons_of_mem _ h'⟩
        intro hx
        subst hx
        exact hn.1 (List.mem_map.2 ⟨(x, l), h', rfl⟩)
    · rw [if_neg hk] at h
      rcases List.mem_cons.1 h with h | h
      · simp only [Prod.mk.injEq] at h
        exact .inl ⟨by rw [h.1]; exact hk, by rw [h.1, h.2]; simp⟩
      · rcases ih hn.2 h with ⟨h1, h2⟩ | ⟨h1, l0, h2, h3⟩
        · exact .inl ⟨h1, List.mem_cons_of_mem _ h2⟩
        · refine .inr ⟨h1, l0, h2, ?_⟩
          rcases h3 with h3 | ⟨h3, h4⟩
          · exact .inl (List.mem_cons_of_mem _ h3)
          · refine .inr ⟨h3, ?_⟩
            simp only [List.map_cons, List.mem_cons]
            rintro (h5 | h5)
            · exact hk h5.symm
            · exact h4 h5

theorem idsOf_snoc (ds : List (Key × Nat)) (k : Key) (i : Nat) (x : Key) :
    idsOf (ds ++ [(k, i)]) x = if x = k then idsOf ds x ++ [i] else idsOf ds x := by
  simp only [idsOf, List.filter_append, List.map_append]
  by_cases h : x = k
  · subst h; simp
  · have : ¬ k = x := fun h' => h h'.symm
    simp [h, this]

theorem idsOf_nil {ds : List (Key × Nat)} {k : Key} (h : k ∉ ds.map (·.1)) : idsOf ds k = [] := by
  simp only [idsOf, List.map_eq_nil_iff, List.filter_eq_nil_iff, beq_iff_eq]
  intro d hd hx
  exact h (List.mem_map.2 ⟨d, hd, hx⟩)

theorem GroupOk.add {g : List (Key × List Nat)} {ds : List (Key × Nat)} (h : GroupOk g ds) (k : Key) (i : Nat) :
    GroupOk (addDevice g k i) (ds ++ [(k, i)]) := by
  refine ⟨addDevice_nodup h.nodup k i, ?_, ?_⟩
  · intro x
    rw [addDevice_keys, h.mem]
    simp
  · intro x l hl
    rw [idsOf_snoc]
    rcases addDevice_mem h.nodup hl with ⟨h1, h2⟩ | ⟨h1, l0, h2, h3⟩
    · rw [if_neg h1]; exact h.ids x l h2
    · rw [if_pos h1, h2, h1]
      rcases h3 with h3 | ⟨h3, h4⟩
      · rw [h.ids k l0 h3]
      · rw [h3, idsOf_nil (by rwa [← h.mem])]

theorem group_ok (ds : List (Key × Nat)) : GroupOk (group ds) ds := by
  have key : ∀ (l : List (Key × Nat)) g done, GroupOk g done →
      GroupOk (l.foldl (fun g d => addDevice g d.1 d.2) g) (done ++ l) := by
    intro l
    induction l with
    | nil => intro g done h; simpa using h
    | cons d l ih =>
      intro g done h
      have := ih _ _ (h.add d.1 d.2)
      simpa using this
  have := key ds [] [] ⟨by simp, by simp, by simp⟩
  simpa [group] using this

theorem sortKey_inj {a b : Key} (h : sortKey a = sortKey b) : a = b := by
  cases a <;> cases b <;> simp_all [sortKey]

abbrev keyLe (a b : Key × List Nat) : Bool := decide (sortKey a.1 ≤ sortKey b.1)

theorem keyLe_total (a b : Key × List Nat) : keyLe a b = true ∨ keyLe b a = true := by
  simp only [keyLe, decide_eq_true_eq]
  exact List.le_total _ _

theorem keyLe_trans (a b c : Key × List Nat) : keyLe a b = true → keyLe b c = true → keyLe a c = true := by
  simp only [keyLe, decide_eq_true_eq]
  exact List.le_trans

theorem keyLe_antisymm {a b : Key × List Nat} (h1 : keyLe a b = true) (h2 : keyLe b a = true) : a.1 = b.1 := by
  simp only [keyLe, decide_eq_true_eq] at h1 h2
  exact sortKey_inj (List.le_antisymm h1 h2)

/-- What the workers look like, but for the representative. -/
def view (ws : List Worker) : List (Nat × Key × List Nat) := ws.map fun w => (w.rank, w.key, w.deviceIds)

theorem keyed_perm {ds es : List Device} (hp : ds.Perm es) {l : List (Key × Nat)} (h : keyed ds = .ok l) :
    ∃ m, keyed es = .ok m ∧ l.Perm m := by
  induction hp generalizing l with
  | nil => exact ⟨l, h, .refl _⟩
  | cons d _ ih =>
    simp only [keyed] at h ⊢
    cases hk : workerKey d with
    | error e => simp [hk] at h
    | ok k =>
      rename_i l1 l2 _
      cases hr : keyed l1 with
      | error e => simp [hk, hr] at h
      | ok r =>
        simp only [hk, hr] at h
        cases h
        obtain ⟨m, hm, hpm⟩ := ih hr
        exact ⟨_, by simp only [hm], hpm.cons _⟩
  | swap a b l0 =>
    simp only [keyed] at h ⊢
    cases ha : workerKey a with
    | error e => cases hb : workerKey b <;> simp [ha, hb] at h
    | ok ka =>
      cases hb : workerKey b with
      | error e => simp [hb] at h
      | ok kb =>
        cases hr : keyed l0 with
        | error e => simp [ha, hb, hr] at h
        | ok r =>
          simp only [ha, hb, hr] at h
          cases h
          exact ⟨_, rfl, .swap _ _ _⟩
  | trans _ _ ih1 ih2 =>
    obtain ⟨m, hm, hpm⟩ := ih1 h
    obtain ⟨m', hm', hpm'⟩ := ih2 hm
    exact ⟨m', hm', hpm.trans hpm'⟩

theorem zipIdx_map_view {l m : List (Key × List Nat)} {n : Nat}
    (h : l.map (fun x => (x.1, sortBy (fun a b => decide (a ≤ b)) x.2)) =
      m.map (fun x => (x.1, sortBy (fun a b => decide (a ≤ b)) x.2))) :
    view ((l.zipIdx n).map fun x => ⟨x.2, x.1.1, sortBy (fun a b => decide (a ≤ b)) x.1.2, x.1.2.headD 0⟩) =
      view ((m.zipIdx n).map fun x => ⟨x.2, x.1.1, sortBy (fun a b => decide (a ≤ b)) x.1.2, x.1.2.headD 0⟩) := by
  induction l generalizing m n with
  | nil =>
    cases m with
    | nil => rfl
    | cons y m => simp at h
  | cons x l ih =>
    cases m with
    | nil => simp at h
    | cons y m =>
      simp only [List.map_cons, List.cons.injEq, Prod.mk.injEq] at h
      obtain ⟨⟨h1, h2⟩, h3⟩ := h
      have := ih (n := n + 1) h3
      simp only [view, List.zipIdx_cons, List.map_cons, List.cons.injEq, Prod.mk.injEq] at this ⊢
      exact ⟨⟨trivial, h1, h2⟩, this⟩

theorem map_sorted_perm {l m : List (Key × Nat)} (hp : l.Perm m) :
    (sortBy keyLe (group l)).map (fun x => (x.1, sortBy (fun a b => decide (a ≤ b)) x.2)) =
      (sortBy keyLe (group m)).map (fun x => (x.1, sortBy (fun a b => decide (a ≤ b)) x.2)) := by
  let f : Key × List Nat → Key × List Nat := fun x => (x.1, sortBy (fun a b => decide (a ≤ b)) x.2)
  have hgl := group_ok l
  have hgm := group_ok m
  have hids : ∀ k, (idsOf l k).Perm (idsOf m k) := fun k => (hp.filter _).map _
  -- both sides are sorted and have the same members
  have hs : ∀ g : List (Key × List Nat), ((sortBy keyLe g).map f).Pairwise (fun a b => keyLe a b = true) := by
    intro g
    rw [List.pairwise_map]
    exact sortBy_sorted keyLe_total keyLe_trans g
  have hpe : ((sortBy keyLe (group l)).map f).Perm ((sortBy keyLe (group m)).map f) := by
    have h1 : ((group l).map f).Perm ((group m).map f) := by
      refine (List.perm_ext_iff_of_nodup ?_ ?_).2 ?_
      · exact List.pairwise_map.2 ((List.pairwise_map.1 hgl.nodup).imp (fun hab hx => hab (congrArg (fun p => p.1) hx)))
      · exact List.pairwise_map.2 ((List.pairwise_map.1 hgm.nodup).imp (fun hab hx => hab (congrArg (fun p => p.1) hx)))
      · intro x
        have hone : ∀ {a b : List (Key × Nat)}, a.Perm b → GroupOk (group a) a → GroupOk (group b) b →
            x ∈ (group a).map f → x ∈ (group b).map f := by
          intro a b hab ha hb hx
          obtain ⟨⟨k, i⟩, hki, rfl⟩ := List.mem_map.1 hx
          have hk : k ∈ (group b).map (·.1) := by
            rw [hb.mem, ← (hab.map _).mem_iff, ← ha.mem]
            exact List.mem_map.2 ⟨_, hki, rfl⟩
          obtain ⟨⟨k', i'⟩, hki', hkk⟩ := List.mem_map.1 hk
          simp only at hkk
          subst hkk
          refine List.mem_map.2 ⟨_, hki', ?_⟩
          simp only [f, ha.ids _ _ hki, hb.ids _ _ hki']
          have hh : (idsOf a k').Perm (idsOf b k') := (hab.filter _).map _
          rw [sortNat_eq hh]
        exact ⟨hone hp hgl hgm, hone hp.symm hgm hgl⟩
    exact (((sortBy_perm keyLe _).map f).trans h1).trans ((sortBy_perm keyLe _).map f).symm
  refine hpe.eq_of_pairwise ?_ (hs _) (hs _)
  intro a b ha hb h1 h2
  have hk := keyLe_antisymm h1 h2
  obtain ⟨⟨k, i⟩, hki, rfl⟩ := List.mem_map.1 ha
  obtain ⟨⟨k', i'⟩, hki', rfl⟩ := List.mem_map.1 hb
  simp only at hk
  subst hk
  have e1 := hgl.ids _ _ ((sortBy_perm keyLe _).mem_iff.1 hki)
  have e2 := hgm.ids _ _ ((sortBy_perm keyLe _).mem_iff.1 hki')
  simp only [e1, e2]
  rw [sortNat_eq (hids k)]

/-- **C105** (Pathways, order): the ranks, the keys and the devices of the workers do not depend on the order in which the
controller lists the devices, so they are the same after a restart. -/
theorem C105_order_independent {ds es : List Device} (hp : ds.Perm es) {ws : List Worker}
    (h : fromDevices ds = .ok ws) : ∃ ws', fromDevices es = .ok ws' ∧ view ws = view ws' := by
  simp only [fromDevices] at h ⊢
  cases hk : keyed ds with
  | error e => simp [hk] at h
  | ok l =>
    simp only [hk] at h
    cases h
    obtain ⟨m, hm, hpm⟩ := keyed_perm hp hk
    simp only [hm]
    exact ⟨_, rfl, zipIdx_map_view (map_sorted_perm hpm)⟩

theorem keyed_mem {ds : List Device} {l : List (Key × Nat)} (h : keyed ds = .ok l) (k : Key) (i : Nat) :
    (k, i) ∈ l ↔ ∃ d ∈ ds, workerKey d = .ok k ∧ d.id = i := by
  induction ds generalizing l with
  | nil => cases h; simp
  | cons d ds ih =>
    simp only [keyed] at h
    cases hk : workerKey d with
    | error e => simp [hk] at h
    | ok k0 =>
      cases hr : keyed ds with
      | error e => simp [hk, hr] at h
      | ok r =>
        simp only [hk, hr] at h
        cases h
        simp only [List.mem_cons, Prod.mk.injEq, ih hr]
        constructor
        · rintro (⟨h1, h2⟩ | ⟨d', hd', h1, h2⟩)
          · exact ⟨d, .inl rfl, by rw [hk, h1], h2.symm⟩
          · exact ⟨d', .inr hd', h1, h2⟩
        · rintro ⟨d', hd' | hd', h1, h2⟩
          · subst hd'
            rw [hk] at h1
            cases h1
            exact .inl ⟨rfl, h2.symm⟩
          · exact .inr ⟨d', hd', h1, h2⟩

/-- **C105** (Pathways, workers): rank `r` is the rank of the `r`-th worker; no two workers have the same key; every device
belongs to the worker with its key, and to no other; workers are sorted by slice, then by task. -/
theorem C105_workers {ds : List Device} {ws : List Worker} (h : fromDevices ds = .ok ws) :
    (∀ (r : Nat) w, ws[r]? = some w → w.rank = r) ∧ (ws.map (·.key)).Nodup ∧
    (∀ k i, (∃ w ∈ ws, w.key = k ∧ i ∈ w.deviceIds) ↔ ∃ d ∈ ds, workerKey d = .ok k ∧ d.id = i) ∧
    ws.Pairwise (fun v w => sortKey v.key < sortKey w.key) ∧
    ∀ w ∈ ws, ∃ i, i ∈ w.deviceIds := by
  simp only [fromDevices] at h
  cases hk : keyed ds with
  | error e => simp [hk] at h
  | ok l =>
    simp only [hk] at h
    cases h
    have hg := group_ok l
    let S := sortBy keyLe (group l)
    have hS : S.Perm (group l) := sortBy_perm _ _
    have hSk : (S.map (·.1)).Nodup := (hS.map _).nodup_iff.2 hg.nodup
    have hkeys : ∀ (L : List (Key × List Nat)) (n : Nat), ((L.zipIdx n).map (fun x =>
        (⟨x.2, x.1.1, sortBy (fun a b => decide (a ≤ b)) x.1.2, x.1.2.headD 0⟩ : Worker))).map (·.key) = L.map (·.1) := by
      intro L
      induction L with
      | nil => intro n; rfl
      | cons x L ih => intro n; simp only [List.zipIdx_cons, List.map_cons, ih]
    have hmem : ∀ w : Worker, w ∈ ((S.zipIdx).map (fun x =>
        (⟨x.2, x.1.1, sortBy (fun a b => decide (a ≤ b)) x.1.2, x.1.2.headD 0⟩ : Worker))) →
        ∃ ids, (w.key, ids) ∈ group l ∧ w.deviceIds = sortBy (fun a b => decide (a ≤ b)) ids := by
      intro w hw
      obtain ⟨⟨⟨k, i⟩, r⟩, hx, rfl⟩ := List.mem_map.1 hw
      have := List.mem_zipIdx_iff_getElem?.1 hx
      exact ⟨i, hS.mem_iff.1 (List.mem_of_getElem? this), rfl⟩
    refine ⟨?_, ?_, ?_, ?_, ?_⟩
    · intro r w hw
      rw [List.getElem?_map] at hw
      obtain ⟨x, hx, rfl⟩ := Option.map_eq_some_iff.1 hw
      rw [List.getElem?_zipIdx] at hx
      obtain ⟨y, _, rfl⟩ := Option.map_eq_some_iff.1 hx
      simp
    · rw [hkeys]; exact hSk
    · intro k i
      rw [← keyed_mem hk]
      constructor
      · rintro ⟨w, hw, hwk, hi⟩
        obtain ⟨ids, h1, h2⟩ := hmem w hw
        rw [h2, (sortBy_perm _ _).mem_iff, hg.ids _ _ h1, hwk] at hi
        simp only [idsOf, List.mem_map, List.mem_filter, beq_iff_eq] at hi
        obtain ⟨⟨a, b⟩, ⟨h3, h4⟩, h5⟩ := hi
        simp only at h4 h5
        subst h4 h5
        exact h3
      · intro hki
        have hkk : k ∈ S.map (·.1) := by
          rw [(hS.map _).mem_iff, hg.mem]
          exact List.mem_map.2 ⟨_, hki, rfl⟩
        rw [← hkeys S 0] at hkk
        obtain ⟨w, hw, hwk⟩ := List.mem_map.1 hkk
        refine ⟨w, hw, hwk, ?_⟩
        obtain ⟨ids, h1, h2⟩ := hmem w hw
        rw [h2, (sortBy_perm _ _).mem_iff, hg.ids _ _ h1, hwk]
        simp only [idsOf, List.mem_map, List.mem_filter, beq_iff_eq]
        exact ⟨(k, i), ⟨hki, rfl⟩, rfl⟩
    · have hsorted : S.Pairwise (fun a b => sortKey a.1 < sortKey b.1) := by
        have h1 : S.Pairwise (fun a b => keyLe a b = true) := sortBy_sorted keyLe_total keyLe_trans _
        have h2 : S.Pairwise (fun a b => a.1 ≠ b.1) := List.pairwise_map.1 hSk
        refine (h1.and h2).imp ?_
        intro a b hab
        have hle : sortKey a.1 ≤ sortKey b.1 := by simpa [keyLe] using hab.1
        have hne : sortKey a.1 ≠ sortKey b.1 := fun hx => hab.2 (sortKey_inj hx)
        exact Std.lt_of_le_of_ne hle hne
      have hwk : (S.map (·.1)).Pairwise (fun a b => sortKey a < sortKey b) := List.pairwise_map.2 hsorted
      rw [← hkeys S 0] at hwk
      exact (List.pairwise_map (f := Worker.key) (R := fun a b => sortKey a < sortKey b)).1 hwk
    · intro w hw
      obtain ⟨ids, h1, h2⟩ := hmem w hw
      have hkl : w.key ∈ l.map (·.1) := by
        rw [← hg.mem]; exact List.mem_map.2 ⟨_, h1, rfl⟩
      obtain ⟨⟨k, i⟩, h3, h4⟩ := List.mem_map.1 hkl
      simp only at h4
      refine ⟨i, ?_⟩
      rw [h2, (sortBy_perm _ _).mem_iff, hg.ids _ _ h1]
      simp only [idsOf, List.mem_map, List.mem_filter, beq_iff_eq]
      exact ⟨(k, i), ⟨h3, h4⟩, rfl⟩

/-- **C105** (Pathways, keys): a device belongs to the first task number it has (virtual task, logical task, task, number in its
text form), on the slice it has; a device without a task number is refused, and then all are. -/
theorem C105_worker_key (d : Device) (t : Nat) :
    (∀ s, workerKey d = .ok (.taskSlice t s) ↔
      (d.virtualTask <|> d.logicalTask <|> d.taskId <|> d.vtask) = some t ∧ d.slice = some s) ∧
    (workerKey d = .ok (.task t) ↔
      (d.virtualTask <|> d.logicalTask <|> d.taskId <|> d.vtask) = some t ∧ d.slice = none) ∧
    ∀ ds, (∃ ws, fromDevices ds = .ok ws) ↔
      ∀ d ∈ ds, (d.virtualTask <|> d.logicalTask <|> d.taskId <|> d.vtask).isSome = true := by
  have htask : ∀ d : Device, taskIndex d = (d.virtualTask <|> d.logicalTask <|> d.taskId <|> d.vtask) := by
    intro d
    simp only [taskIndex]
    cases d.virtualTask <;> cases d.logicalTask <;> cases d.taskId <;> cases d.vtask <;> rfl
  refine ⟨?_, ?_, ?_⟩
  · intro s
    rw [← htask]
    simp only [workerKey]
    cases taskIndex d <;> cases d.slice <;> simp
  · rw [← htask]
    simp only [workerKey]
    cases taskIndex d <;> cases d.slice <;> simp
  · intro ds
    have h1 : (∃ ws, fromDevices ds = .ok ws) ↔ ∃ l, keyed ds = .ok l := by
      simp only [fromDevices]
      cases keyed ds with
      | error e => exact ⟨(fun ⟨_, h⟩ => nomatch h), (fun ⟨_, h⟩ => nomatch h)⟩
      | ok l => exact ⟨fun _ => ⟨_, rfl⟩, fun _ => ⟨_, rfl⟩⟩
    rw [h1]
    clear h1
    induction ds with
    | nil => exact ⟨fun _ => by simp, fun _ => ⟨_, rfl⟩⟩
    | cons d ds ih =>
      have hk : (∃ k, workerKey d = .ok k) ↔ (d.virtualTask <|> d.logicalTask <|> d.taskId <|> d.vtask).isSome = true := by
        rw [← htask]
        simp only [workerKey]
        cases taskIndex d <;> cases d.slice <;> simp
      refine Iff.trans ?_ List.forall_mem_cons.symm
      refine Iff.trans ?_ (and_congr hk ih)
      simp only [keyed]
      cases workerKey d with
      | error e => exact ⟨(fun ⟨_, h⟩ => nomatch h), (fun ⟨⟨_, h⟩, _⟩ => nomatch h)⟩
      | ok k =>
        cases keyed ds with
        | error e => exact ⟨(fun ⟨_, h⟩ => nomatch h), (fun ⟨_, ⟨_, h⟩⟩ => nomatch h)⟩
        | ok l => exact ⟨fun _ => ⟨⟨_, rfl⟩, ⟨_, rfl⟩⟩, fun _ => ⟨_, rfl⟩⟩

/-- **C105** (Pathways, rank order): of two workers the one with the lower slice number, then the lower task number, has the lower
rank. -/
theorem C105_slice_major {ds : List Device} {ws : List Worker} (h : fromDevices ds = .ok ws) {v w : Worker} (hv : v ∈ ws)
    (hw : w ∈ ws) {t s t' s' : Nat} (hk : v.key = .taskSlice t s) (hk' : w.key = .taskSlice t' s') :
    v.rank < w.rank ↔ s < s' ∨ (s = s' ∧ t < t') := by
  obtain ⟨hrank, hkey, _, hsort, _⟩ := C105_workers h
  have hone : ∀ {v w : Worker}, v ∈ ws → w ∈ ws → ∀ {t s t' s' : Nat}, v.key = .taskSlice t s → w.key = .taskSlice t' s' →
      v.rank < w.rank → s < s' ∨ (s = s' ∧ t < t') := by
    intro v w hv hw t s t' s' hk hk' hlt
    obtain ⟨i, hi⟩ := List.getElem?_of_mem hv
    obtain ⟨j, hj⟩ := List.getElem?_of_mem hw
    have h1 := hrank i v hi
    have h2 := hrank j w hj
    obtain ⟨hil, hi'⟩ := List.getElem?_eq_some_iff.1 hi
    obtain ⟨hjl, hj'⟩ := List.getElem?_eq_some_iff.1 hj
    have h3 := (List.pairwise_iff_getElem.1 hsort) i j hil hjl (by omega)
    rw [hi', hj', hk, hk'] at h3
    simp only [sortKey, List.cons_lt_cons_iff] at h3
    rcases h3 with h3 | ⟨h3, h4 | ⟨_, h4⟩⟩
    · exact .inl h3
    · exact .inr ⟨h3, h4⟩
    · exact absurd h4 (by simp)
  refine ⟨hone hv hw hk hk', ?_⟩
  intro hx
  rcases Nat.lt_trichotomy v.rank w.rank with h1 | h1 | h1
  · exact h1
  · obtain ⟨i, hi⟩ := List.getElem?_of_mem hv
    obtain ⟨j, hj⟩ := List.getElem?_of_mem hw
    have h2 := hrank i v hi
    have h3 := hrank j w hj
    have : i = j := by omega
    subst this
    rw [hi] at hj
    cases hj
    rw [hk] at hk'
    cases hk'
    omega
  · have := hone hw hv hk' hk h1
    omega

/-! ## Pathways: slices and peers -/

theorem mem_dedup {l : List Nat} {x : Nat} : x ∈ dedup l ↔ x ∈ l := by
  induction l with
  | nil => simp [dedup]
  | cons y l ih =>
    simp only [dedup]
    by_cases h : (dedup l).contains y = true
    · rw [if_pos h, ih, List.mem_cons]
      constructor
      · exact Or.inr
      · rintro (h1 | h1)
        · exact ih.1 (h1 ▸ (by simpa using h))
        · exact h1
    · rw [if_neg h, List.mem_cons, List.mem_cons, ih]

theorem nodup_dedup (l : List Nat) : (dedup l).Nodup := by
  induction l with
  | nil => simp [dedup]
  | cons y l ih =>
    simp only [dedup]
    by_cases h : (dedup l).contains y = true
    · rw [if_pos h]; exact ih
    · rw [if_neg h]
      exact List.nodup_cons.2 ⟨by simpa using h, ih⟩

theorem mem_slicesOf {ws : List Worker} {s : Nat} : s ∈ slicesOf ws ↔ ∃ w ∈ ws, w.key.slice? = some s := by
  simp only [slicesOf]
  rw [(sortBy_perm _ _).mem_iff, mem_dedup, List.mem_filterMap]

theorem nodup_slicesOf (ws : List Worker) : (slicesOf ws).Nodup :=
  (sortBy_perm _ _).nodup_iff.2 (nodup_dedup _)

theorem key_eq {k : Key} {t s : Nat} (h1 : k.slice? = some s) (h2 : k.task? = t) : k = .taskSlice t s := by
  cases k with
  | task a => simp [Key.slice?] at h1
  | taskSlice a b =>
    simp only [Key.slice?, Option.some.injEq] at h1
    simp only [Key.task?] at h2
    rw [h1, h2]

theorem mem_tasksOf {ws : List Worker} {s t : Nat} : t ∈ tasksOf ws s ↔ ∃ w ∈ ws, w.key = .taskSlice t s := by
  simp only [tasksOf, List.mem_map, List.mem_filter, beq_iff_eq]
  constructor
  · rintro ⟨w, ⟨h1, h2⟩, h3⟩
    exact ⟨w, h1, key_eq h2 h3⟩
  · rintro ⟨w, h1, h2⟩
    exact ⟨w, ⟨h1, by rw [h2]; rfl⟩, by rw [h2]; rfl⟩

theorem sameSet_iff {a b : List Nat} : sameSet a b = true ↔ ∀ x, x ∈ a ↔ x ∈ b := by
  simp only [sameSet, Bool.and_eq_true, List.all_eq_true, List.contains_eq_mem, decide_eq_true_eq]
  constructor
  · rintro ⟨h1, h2⟩ x; exact ⟨h1 x, h2 x⟩
  · intro h; exact ⟨fun x => (h x).1, fun x => (h x).2⟩

theorem headD_mem {l : List Nat} (h : l ≠ []) : l.headD 0 ∈ l := by
  cases l with
  | nil => exact absurd rfl h
  | cons a l => simp

/-- **C105** (Pathways, accepted topologies): a number of slices is accepted exactly when it is positive and divides the positive
number of workers, and, unless it is one, the workers are all the pairs of some tasks and that many slices. -/
theorem C105_accepts (ws : List Worker) (n : Nat) :
    validate ws n = .ok () ↔ 0 < n ∧ ws ≠ [] ∧ ws.length % n = 0 ∧ (n = 1 ∨ Grid ws n) := by
  simp only [validate]
  by_cases h0 : n = 0
  · rw [if_pos h0]
    constructor
    · intro h; cases h
    · rintro ⟨h, _⟩; omega
  rw [if_neg h0]
  by_cases h1 : ws = []
  · rw [if_pos h1]
    constructor
    · intro h; cases h
    · rintro ⟨_, h, _⟩; exact absurd h1 h
  rw [if_neg h1]
  by_cases h2 : ws.length % n ≠ 0
  · rw [if_pos h2]
    constructor
    · intro h; cases h
    · rintro ⟨_, _, h, _⟩; exact absurd h h2
  rw [if_neg h2]
  by_cases h3 : n = 1
  · rw [if_pos h3]
    constructor
    · intro _; exact ⟨by omega, h1, by omega, .inl h3⟩
    · intro _; rfl
  rw [if_neg h3]
  by_cases h4 : (ws.any fun w => w.key.slice?.isNone) = true
  · rw [if_pos h4]
    constructor
    · intro h; cases h
    · rintro ⟨_, _, _, h | ⟨T, S, _, _, h5, _⟩⟩
      · exact absurd h h3
      · obtain ⟨w, hw, hx⟩ := List.any_eq_true.1 h4
        obtain ⟨t, s, h6, _⟩ := h5 w hw
        rw [h6] at hx
        simp [Key.slice?] at hx
  rw [if_neg h4]
  have hsl : ∀ w ∈ ws, ∃ t s, w.key = .taskSlice t s := by
    intro w hw
    cases hk : w.key with
    | task t => exact absurd (List.any_eq_true.2 ⟨w, hw, by rw [hk]; rfl⟩) h4
    | taskSlice t s => exact ⟨t, s, rfl⟩
  have hne : slicesOf ws ≠ [] := by
    intro hx
    cases ws with
    | nil => exact h1 rfl
    | cons w l =>
      obtain ⟨t, s, hk⟩ := hsl w (by simp)
      have : s ∈ slicesOf (w :: l) := mem_slicesOf.2 ⟨w, by simp, by rw [hk]; rfl⟩
      rw [hx] at this
      cases this
  have hgrid : ∀ {T S : List Nat}, S.Nodup → (∀ w ∈ ws, ∃ t s, w.key = .taskSlice t s ∧ t ∈ T ∧ s ∈ S) →
      (∀ t ∈ T, ∀ s ∈ S, ∃ w ∈ ws, w.key = .taskSlice t s) → (slicesOf ws).Perm S := by
    intro T S hS hA hB
    refine (List.perm_ext_iff_of_nodup (nodup_slicesOf ws) hS).2 ?_
    intro s
    rw [mem_slicesOf]
    constructor
    · rintro ⟨w, hw, hs⟩
      obtain ⟨t, s', hk, _, hs'⟩ := hA w hw
      rw [hk] at hs
      simp only [Key.slice?, Option.some.injEq] at hs
      exact hs ▸ hs'
    · intro hs
      obtain ⟨w0, l, hw0⟩ := List.exists_cons_of_ne_nil h1
      obtain ⟨t, _, _, ht, _⟩ := hA w0 (by rw [hw0]; simp)
      obtain ⟨w, hw, hk⟩ := hB t ht s hs
      exact ⟨w, hw, by rw [hk]; rfl⟩
  by_cases h5 : (slicesOf ws).length ≠ n
  · rw [if_pos h5]
    constructor
    · intro h; cases h
    · rintro ⟨_, _, _, h | ⟨T, S, h6, h7, h8, h9⟩⟩
      · exact absurd h h3
      · exact absurd ((hgrid h6 h8 h9).length_eq.trans h7) h5
  rw [if_neg h5]
  by_cases h6 : ((slicesOf ws).all fun s => sameSet (tasksOf ws s) (tasksOf ws ((slicesOf ws).headD 0))) = true
  · rw [if_pos h6]
    refine ⟨fun _ => ⟨by omega, h1, by omega, .inr ?_⟩, fun _ => rfl⟩
    refine ⟨tasksOf ws ((slicesOf ws).headD 0), slicesOf ws, nodup_slicesOf ws, by omega, ?_, ?_⟩
    · intro w hw
      obtain ⟨t, s, hk⟩ := hsl w hw
      have hs : s ∈ slicesOf ws := mem_slicesOf.2 ⟨w, hw, by rw [hk]; rfl⟩
      refine ⟨t, s, hk, ?_, hs⟩
      exact (sameSet_iff.1 (List.all_eq_true.1 h6 s hs) t).1 (mem_tasksOf.2 ⟨w, hw, hk⟩)
    · intro t ht s hs
      exact mem_tasksOf.1 ((sameSet_iff.1 (List.all_eq_true.1 h6 s hs) t).2 ht)
  · rw [if_neg h6]
    constructor
    · intro h; cases h
    · rintro ⟨_, _, _, h | ⟨T, S, h7, h8, h9, h10⟩⟩
      · exact absurd h h3
      · refine absurd (List.all_eq_true.2 ?_) h6
        have hp := hgrid h7 h9 h10
        have htask : ∀ s ∈ slicesOf ws, ∀ t, t ∈ tasksOf ws s ↔ t ∈ T := by
          intro s hs t
          rw [mem_tasksOf]
          constructor
          · rintro ⟨w, hw, hk⟩
            obtain ⟨t', s', hk', ht', _⟩ := h9 w hw
            rw [hk] at hk'
            cases hk'
            exact ht'
          · intro ht; exact h10 t ht s (hp.mem_iff.1 hs)
        intro s hs
        exact sameSet_iff.2 (fun t => (htask s hs t).trans (htask _ (headD_mem hne) t).symm)

theorem key_inj {ws : List Worker} (hk : (ws.map (·.key)).Nodup) {v w : Worker} (hv : v ∈ ws) (hw : w ∈ ws)
    (h : v.key = w.key) : v = w := by
  induction ws with
  | nil => cases hv
  | cons a l ih =>
    simp only [List.map_cons, List.nodup_cons] at hk
    rcases List.mem_cons.1 hv with hv' | hv' <;> rcases List.mem_cons.1 hw with hw' | hw'
    · rw [hv', hw']
    · subst hv'; exact absurd (List.mem_map.2 ⟨w, hw', h.symm⟩) hk.1
    · subst hw'; exact absurd (List.mem_map.2 ⟨v, hv', h⟩) hk.1
    · exact ih hk.2 hv' hw'

theorem rankOf_ok {ws : List Worker} (hk : (ws.map (·.key)).Nodup) {v : Worker} (hv : v ∈ ws) :
    rankOf ws v.key = .ok v.rank := by
  simp only [rankOf]
  cases hf : ws.find? fun w => w.key == v.key with
  | none =>
    have := List.find?_eq_none.1 hf v hv
    simp at this
  | some w =>
    have h1 := List.mem_of_find?_eq_some hf
    have h2 := List.find?_some hf
    simp only [beq_iff_eq] at h2
    rw [key_inj hk h1 hv h2]

theorem ranksOf_ok {ws : List Worker} (hk : (ws.map (·.key)).Nodup) (t : Nat) {l : List Nat}
    (h : ∀ s ∈ l, ∃ v ∈ ws, v.key = .taskSlice t s) :
    ∃ rs, ranksOf ws t l = .ok rs ∧ rs.length = l.length ∧
      ∀ r, r ∈ rs ↔ ∃ v ∈ ws, v.rank = r ∧ v.key.task? = t ∧ ∃ s ∈ l, v.key.slice? = some s := by
  induction l with
  | nil => exact ⟨[], rfl, rfl, by simp⟩
  | cons s l ih =>
    obtain ⟨v, hv, hvk⟩ := h s (by simp)
    obtain ⟨rs, h1, h2, h3⟩ := ih (fun s' hs' => h s' (List.mem_cons_of_mem _ hs'))
    refine ⟨v.rank :: rs, ?_, by simp [h2], ?_⟩
    · simp only [ranksOf]
      rw [← hvk, rankOf_ok hk hv]
      simp only [h1]
    · intro r
      rw [List.mem_cons, h3]
      constructor
      · rintro (h4 | ⟨u, hu, h5, h6, s', h7, h8⟩)
        · exact ⟨v, hv, h4.symm, by rw [hvk]; rfl, s, by simp, by rw [hvk]; rfl⟩
        · exact ⟨u, hu, h5, h6, s', List.mem_cons_of_mem _ h7, h8⟩
      · rintro ⟨u, hu, h5, h6, s', h7, h8⟩
        rcases List.mem_cons.1 h7 with h7 | h7
        · left
          rw [← h5, key_inj hk hu hv (by rw [hvk, key_eq h8 h6, h7])]
        · exact .inr ⟨u, hu, h5, h6, s', h7, h8⟩

theorem ranksOf_nodup {ws : List Worker} (hk : (ws.map (·.key)).Nodup)
    (hr : ∀ v ∈ ws, ∀ w ∈ ws, v.rank = w.rank → v = w) (t : Nat) {l : List Nat} (hl : l.Nodup)
    (h : ∀ s ∈ l, ∃ v ∈ ws, v.key = .taskSlice t s) {rs : List Nat} (hrs : ranksOf ws t l = .ok rs) : rs.Nodup := by
  induction l generalizing rs with
  | nil => cases hrs; simp
  | cons s l ih =>
    obtain ⟨v, hv, hvk⟩ := h s (by simp)
    have ht : ∀ s ∈ l, ∃ v ∈ ws, v.key = .taskSlice t s := fun s' hs' => h s' (List.mem_cons_of_mem _ hs')
    obtain ⟨rs', h1, _, h3⟩ := ranksOf_ok hk t ht
    simp only [ranksOf] at hrs
    rw [← hvk, rankOf_ok hk hv] at hrs
    simp only [h1] at hrs
    cases hrs
    rw [List.nodup_cons] at hl ⊢
    refine ⟨?_, ih hl.2 ht h1⟩
    rw [h3]
    rintro ⟨u, hu, h5, _, s', h7, h8⟩
    rw [hr u hu v hv h5, hvk] at h8
    simp only [Key.slice?, Option.some.injEq] at h8
    exact hl.1 (h8 ▸ h7)

theorem peersOf_ok {ws : List Worker} {slices : List Nat} (l : List Worker)
    (h : ∀ w ∈ l, ∃ rs, ranksOf ws w.key.task? (slices.filter fun s => w.key.slice? != some s) = .ok rs) :
    ∃ P, peersOf ws slices l = .ok P ∧ P.length = l.length ∧
      ∀ (i : Nat) w, l[i]? = some w → ∃ rs, P[i]? = some rs ∧
        ranksOf ws w.key.task? (slices.filter fun s => w.key.slice? != some s) = .ok rs := by
  induction l with
  | nil => exact ⟨[], rfl, rfl, by simp⟩
  | cons w l ih =>
    obtain ⟨rs, h1⟩ := h w (by simp)
    obtain ⟨P, h2, h3, h4⟩ := ih (fun v hv => h v (List.mem_cons_of_mem _ hv))
    refine ⟨rs :: P, by simp only [peersOf, h1, h2], by simp [h3], ?_⟩
    intro i v hv
    cases i with
    | zero =>
      simp only [List.getElem?_cons_zero, Option.some.injEq] at hv
      subst hv
      exact ⟨rs, by simp, h1⟩
    | succ i =>
      simp only [List.getElem?_cons_succ] at hv
      obtain ⟨rs', h5, h6⟩ := h4 i v hv
      exact ⟨rs', by simpa using h5, h6⟩

theorem filter_ne_length {l : List Nat} (h : l.Nodup) {a : Nat} (ha : a ∈ l) :
    (l.filter fun s => some a != some s).length = l.length - 1 := by
  induction l with
  | nil => cases ha
  | cons b l ih =>
    rw [List.nodup_cons] at h
    by_cases hb : a = b
    · subst hb
      have : (l.filter fun s => some a != some s) = l := by
        rw [List.filter_eq_self]
        intro s hs
        have : a ≠ s := fun hx => h.1 (hx ▸ hs)
        simpa using this
      simp [this]
    · have hal : a ∈ l := (List.mem_cons.1 ha).resolve_left hb
      have h1 := ih h.2 hal
      have hpos := List.length_pos_of_mem hal
      rw [List.filter_cons_of_pos (by simpa using hb)]
      simp only [List.length_cons, h1]
      omega

/-- **C105** (Pathways, peers): on an accepted topology the peers are computed, and with more than one slice the peers of a worker
are exactly the ranks of the workers with its task on the other slices: one for every other slice. With one slice there are
none, however many slices the workers are on. -/
theorem C105_peers {ds : List Device} {ws : List Worker} (h : fromDevices ds = .ok ws) {n : Nat}
    (hv : 0 < n ∧ ws ≠ [] ∧ ws.length % n = 0 ∧ (n = 1 ∨ Grid ws n)) :
    ∃ P, peers ws n = .ok P ∧ P.length = ws.length ∧ (n = 1 → ∀ p ∈ P, p = []) ∧
      (n ≠ 1 → ∀ w ∈ ws, ∃ p, P[w.rank]? = some p ∧ p.Nodup ∧ p.length = n - 1 ∧ (∀ r ∈ p, ∃ v ∈ ws, v.rank = r) ∧
        ∀ v ∈ ws, v.rank ∈ p ↔ ∃ t s s', w.key = .taskSlice t s ∧ v.key = .taskSlice t s' ∧ s' ≠ s) := by
  obtain ⟨hrank, hkey, _, _, _⟩ := C105_workers h
  have hval := (C105_accepts ws n).2 hv
  simp only [peers, hval]
  by_cases hn : n = 1
  · rw [if_pos hn]
    refine ⟨_, rfl, by simp, ?_, fun hx => absurd hn hx⟩
    intro _ p hp
    obtain ⟨_, _, rfl⟩ := List.mem_map.1 hp
    rfl
  rw [if_neg hn]
  obtain ⟨T, S, hS1, hS2, hA, hB⟩ := hv.2.2.2.resolve_left hn
  have hrinj : ∀ v ∈ ws, ∀ w ∈ ws, v.rank = w.rank → v = w := by
    intro v hv w hw hr
    obtain ⟨i, hi⟩ := List.getElem?_of_mem hv
    obtain ⟨j, hj⟩ := List.getElem?_of_mem hw
    have h1 := hrank i v hi
    have h2 := hrank j w hj
    have : i = j := by omega
    subst this
    rw [hi] at hj
    exact Option.some.inj hj
  have hsl : ∀ s, s ∈ slicesOf ws ↔ s ∈ S := by
    intro s
    rw [mem_slicesOf]
    constructor
    · rintro ⟨w, hw, hs⟩
      obtain ⟨t, s', hk, _, hs'⟩ := hA w hw
      rw [hk] at hs
      simp only [Key.slice?, Option.some.injEq] at hs
      exact hs ▸ hs'
    · intro hs
      obtain ⟨w0, l, hw0⟩ := List.exists_cons_of_ne_nil hv.2.1
      obtain ⟨t, _, _, ht, _⟩ := hA w0 (by rw [hw0]; simp)
      obtain ⟨w, hw, hk⟩ := hB t ht s hs
      exact ⟨w, hw, by rw [hk]; rfl⟩
  have hlen : (slicesOf ws).length = n := by
    rw [← hS2]
    exact ((List.perm_ext_iff_of_nodup (nodup_slicesOf ws) hS1).2 hsl).length_eq
  have hex : ∀ w ∈ ws, ∀ s ∈ (slicesOf ws).filter (fun s => w.key.slice? != some s),
      ∃ v ∈ ws, v.key = .taskSlice w.key.task? s := by
    intro w hw s hs
    obtain ⟨t, s0, hk, ht, _⟩ := hA w hw
    rw [hk]
    exact hB t ht s ((hsl s).1 (List.mem_filter.1 hs).1)
  obtain ⟨P, hP, hPl, hPi⟩ := peersOf_ok (ws := ws) (slices := slicesOf ws) ws (fun w hw => by
    obtain ⟨rs, h1, _⟩ := ranksOf_ok hkey w.key.task? (hex w hw)
    exact ⟨rs, h1⟩)
  refine ⟨P, hP, hPl, fun hx => absurd hx hn, ?_⟩
  intro _ w hw
  obtain ⟨i, hi⟩ := List.getElem?_of_mem hw
  have hwr := hrank i w hi
  obtain ⟨p, hp, hpr⟩ := hPi i w hi
  obtain ⟨rs, h1, h2, h3⟩ := ranksOf_ok hkey w.key.task? (hex w hw)
  rw [hpr] at h1
  cases h1
  obtain ⟨t, s0, hk, ht, hs0⟩ := hA w hw
  refine ⟨p, by rw [hwr]; exact hp, ?_, ?_, ?_, ?_⟩
  · exact ranksOf_nodup hkey hrinj _ ((nodup_slicesOf ws).filter _) (hex w hw) hpr
  · rw [h2, hk]
    simp only [Key.slice?]
    rw [filter_ne_length (nodup_slicesOf ws) ((hsl s0).2 hs0), hlen]
  · intro r hr
    obtain ⟨v, hv, h4, _⟩ := (h3 r).1 hr
    exact ⟨v, hv, h4⟩
  · intro v hv
    rw [h3]
    constructor
    · rintro ⟨u, hu, h4, h5, s, h6, h7⟩
      have := hrinj u hu v hv h4
      subst this
      have h8 := (List.mem_filter.1 h6).2
      rw [hk] at h5 h8
      simp only [Key.slice?, bne_iff_ne, ne_eq, Option.some.injEq] at h8
      exact ⟨t, s0, s, hk, key_eq h7 h5, fun hx => h8 hx.symm⟩
    · rintro ⟨t', s, s', h4, h5, h6⟩
      rw [hk] at h4
      cases h4
      refine ⟨v, hv, rfl, by rw [hk, h5]; rfl, s', ?_, by rw [h5]; rfl⟩
      refine List.mem_filter.2 ⟨mem_slicesOf.2 ⟨v, hv, by rw [h5]; rfl⟩, ?_⟩
      rw [hk]
      simp only [Key.slice?, bne_iff_ne, ne_eq, Option.some.injEq]
      exact fun hx => h6 hx.symm

/-! ## Remapping device ids -/

theorem lookupLast_mem {l : List (Nat × Nat)} {x y : Nat} (h : lookupLast l x = some y) : (x, y) ∈ l := by
  induction l with
  | nil => cases h
  | cons p l ih =>
    obtain ⟨s, t⟩ := p
    simp only [lookupLast] at h
    cases hl : lookupLast l x with
    | some z =>
      simp only [hl, Option.some.injEq] at h
      subst h
      exact List.mem_cons_of_mem _ (ih hl)
    | none =>
      simp only [hl] at h
      by_cases hs : s = x
      · rw [if_pos hs, Option.some.injEq] at h
        rw [hs, h]; simp
      · rw [if_neg hs] at h; cases h

theorem lookupLast_isSome {l : List (Nat × Nat)} {x : Nat} :
    (lookupLast l x).isSome = true ↔ x ∈ l.map (·.1) := by
  induction l with
  | nil => simp [lookupLast]
  | cons p l ih =>
    obtain ⟨s, t⟩ := p
    simp only [lookupLast, List.map_cons, List.mem_cons]
    cases hl : lookupLast l x with
    | some z =>
      rw [hl] at ih
      simp only [Option.isSome_some, true_iff] at ih ⊢
      exact .inr ih
    | none =>
      rw [hl] at ih
      simp only [Option.isSome_none, Bool.false_eq_true, false_iff] at ih
      by_cases hs : s = x
      · simp [hs]
      · have : ¬ x = s := fun h => hs h.symm
        simp only [if_neg hs, Option.isSome_none, Bool.false_eq_true, this, false_or, false_iff]
        exact ih

/-- **C105** (Pathways, device ids): ids are remapped exactly when the two lists of devices have equal length and every id of the
workers is in the first; then, if the ids of the first list are distinct, every id becomes the id at the same position of the second. -/
theorem C105_remap (nested : List (List Nat)) (source target : List Nat) :
    ((∃ out, remap nested source target = .ok out) ↔
      source.length = target.length ∧ ∀ l ∈ nested, ∀ x ∈ l, x ∈ source) ∧
    ∀ out, remap nested source target = .ok out → source.Nodup →
      out.length = nested.length ∧
      ∀ (i : Nat) l, nested[i]? = some l → ∃ m, out[i]? = some m ∧ m.length = l.length ∧
        ∀ (j p : Nat) x, l[j]? = some x → source[p]? = some x → m[j]? = target[p]? := by
  have hkeys : source.length = target.length → (source.zip target).map (·.1) = source := by
    intro h
    exact List.map_fst_zip (by omega)
  have hall : source.length = target.length →
      ((nested.all fun l => l.all fun x => (lookupLast (source.zip target) x).isSome) = true ↔
        ∀ l ∈ nested, ∀ x ∈ l, x ∈ source) := by
    intro h
    simp only [List.all_eq_true, lookupLast_isSome, hkeys h]
  by_cases hl : source.length ≠ target.length
  · simp only [remap, if_pos hl]
    refine ⟨⟨(fun ⟨_, h⟩ => nomatch h), fun h => absurd h.1 hl⟩, fun _ h => nomatch h⟩
  have hl : source.length = target.length := by omega
  by_cases ha : (nested.all fun l => l.all fun x => (lookupLast (source.zip target) x).isSome) = true
  · simp only [remap, hl, ne_eq, not_true_eq_false, if_false, ha, if_true]
    refine ⟨⟨fun _ => ⟨trivial, (hall hl).1 ha⟩, fun _ => ⟨_, rfl⟩⟩, ?_⟩
    intro out h hn
    cases h
    refine ⟨by simp, ?_⟩
    intro i l hi
    refine ⟨_, by rw [List.getElem?_map, hi]; rfl, by simp, ?_⟩
    intro j p x hj hp
    rw [List.getElem?_map, hj]
    simp only [Option.map_some]
    have hx : (lookupLast (source.zip target) x).isSome = true :=
      lookupLast_isSome.2 (by rw [hkeys hl]; exact List.mem_of_getElem? hp)
    obtain ⟨y, hy⟩ := Option.isSome_iff_exists.1 hx
    rw [hy]
    obtain ⟨q, hq⟩ := List.getElem?_of_mem (lookupLast_mem hy)
    rw [List.getElem?_zip_eq_some] at hq
    have := getElem?_inj' hn hq.1 hp
    subst this
    rw [hq.2]
    rfl
  · simp only [remap, hl, ne_eq, not_true_eq_false, if_false, ha]
    refine ⟨⟨(fun ⟨_, h⟩ => nomatch h), fun h => absurd ((hall hl).2 h.2) ha⟩, fun _ h => nomatch h⟩

/-! ## Non-vacuity -/

/-- Six processes in three slices, with ranks in another order: process 4 has the peers of processes 0 and 2. -/
theorem C105_nonvacuous : standard 6 3 [5, 4, 3, 2, 1, 0] 4 = .ok (1, [5, 3]) := by rfl

/-- Eight processes dealt in turn to two slices: the peer of process 0 is process 4, in the same slice. -/
theorem C105_interleaved_nonvacuous : standard 8 2 [0, 1, 2, 3, 4, 5, 6, 7] 0 = .ok (0, [4]) := by rfl

/-- Two slices with two tasks, devices listed in a mixed order. -/
theorem C105_pathways_nonvacuous :
    ∃ ws, fromDevices [⟨7, some 1, none, none, none, some 0⟩, ⟨3, none, none, some 0, none, some 1⟩,
        ⟨4, none, none, none, some 1, some 1⟩, ⟨5, some 0, none, none, none, some 0⟩,
        ⟨6, some 1, none, none, none, some 0⟩] = .ok ws ∧
      ws.map (·.deviceIds) = [[5], [6, 7], [3], [4]] ∧ peers ws 2 = .ok [[2], [3], [0], [1]] ∧
      peers ws 1 = .ok [[], [], [], []] ∧ peers ws 4 = .error .valueError ∧
      remap (ws.map (·.deviceIds)) [3, 4, 5, 6, 7] [10, 11, 12, 13, 14] = .ok [[12], [13, 14], [10], [11]] := by
  refine ⟨_, rfl, ?_, ?_, ?_, ?_, ?_⟩ <;> rfl

end Verif.Emergency.Ranks
