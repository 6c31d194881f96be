import Verif.Safetensors.PlanProps

/-!
# C80: how much is read and in how many requests
-/
namespace Verif.Safetensors

/-! ## Specification -/

/-- The bytes needed by the reads with the given numbers. -/
def neededBy (reads : List Read) (members : List Nat) : Nat :=
  (members.map fun i => ((reads[i]?).map Read.length).getD 0).sum

/-- The reads that begin more than `gap` bytes after the end of everything that begins before them:
each begins a group of reads that are close to each other. -/
def starters (gap : Nat) (reads : List Read) : List Read :=
  reads.filter fun r => reads.all fun s =>
    decide (s.offset < r.offset → s.offset + s.length + gap < r.offset)

/-! ## Over-read -/

theorem neededBy_append (reads : List Read) (ms : List Nat) (i : Nat) (r : Read)
    (h : reads[i]? = some r) : neededBy reads (ms ++ [i]) = neededBy reads ms + r.length := by
  simp [neededBy, h]

theorem blocksFrom_ratio (reads : List Read) (num den gap : Nat) (hnd : den ≤ num)
    (rest : List (Nat × Read)) : ∀ (start stop needed : Nat) (members : List Nat),
    (∀ x ∈ rest, reads[x.1]? = some x.2 ∧ start ≤ x.2.offset) →
    rest.Pairwise (fun a b => a.2.offset ≤ b.2.offset) →
    start ≤ stop → needed = neededBy reads members → 1 ≤ members.length →
    (stop - start) * den ≤ num * needed + den * gap * (members.length - 1) →
    ∀ b ∈ blocksFrom (ratioWithin (num, den)) gap start stop needed members rest,
      (b.stop - b.start) * den ≤ num * neededBy reads b.members + den * gap * (b.members.length - 1) := by
  induction rest with
  | nil =>
    intro start stop needed members _ _ _ hn _ hb b h
    simp only [blocksFrom, List.mem_singleton] at h
    subst h
    rw [← hn]
    exact hb
  | cons x rest ih =>
    intro start stop needed members hr hp hle hn hm hb
    obtain ⟨i, r⟩ := x
    rw [List.pairwise_cons] at hp
    obtain ⟨hx1, hx2⟩ := hr (i, r) (by simp)
    simp only at hx1 hx2
    simp only [blocksFrom]
    split
    · rename_i hc
      apply ih
      · exact fun y hy => hr y (List.mem_cons_of_mem _ hy)
      · exact hp.2
      · omega
      · rw [neededBy_append reads members i r hx1, hn]
      · simp
      · rw [List.length_append, List.length_singleton, Nat.add_sub_cancel, Nat.mul_add]
        rcases hc with hc | hc
        · have h1 : max stop (r.offset + r.length) - start ≤ (stop - start) + gap + r.length := by omega
          have h2 := Nat.mul_le_mul_right den h1
          rw [Nat.add_mul, Nat.add_mul] at h2
          have h3 : r.length * den ≤ num * r.length := by
            rw [Nat.mul_comm num]; exact Nat.mul_le_mul_left _ hnd
          have h4 : den * gap * members.length = den * gap * (members.length - 1) + den * gap := by
            rw [← Nat.mul_succ]; congr 1; omega
          have h5 : gap * den = den * gap := Nat.mul_comm _ _
          omega
        · have := of_decide_eq_true hc
          simp only [Nat.mul_add] at this
          omega
    · intro b hbm
      rcases List.mem_cons.1 hbm with rfl | hbm
      · rw [← hn]; exact hb
      · refine ih r.offset (r.offset + r.length) r.length [i] ?_ hp.2 (by omega) ?_ (by simp) ?_ b hbm
        · exact fun y hy => ⟨(hr y (List.mem_cons_of_mem _ hy)).1, hp.1 y hy⟩
        · simp [neededBy, hx1]
        · simp only [List.length_singleton, Nat.sub_self, Nat.mul_zero, Nat.add_zero]
          rw [Nat.add_sub_cancel_left, Nat.mul_comm num]
          exact Nat.mul_le_mul_left _ hnd

/-- C80: with an over-read ratio of at least one, no coalesced read exceeds the ratio times the bytes it
is needed for, except by the gap floor once for every run it joins. -/
theorem C80_over_read (num den gap : Nat) (hnd : den ≤ num) (reads : List Read) :
    ∀ b ∈ partitionRuns (ratioWithin (num, den)) gap reads,
      (b.stop - b.start) * den ≤ num * neededBy reads b.members + den * gap * (b.members.length - 1) := by
  have hp := sortedReads_pairwise reads
  have hm : ∀ x ∈ sortedReads reads, reads[x.1]? = some x.2 :=
    fun x hx => (mem_sortedReads reads x.1 x.2).1 hx
  unfold partitionRuns
  cases hs : sortedReads reads with
  | nil => simp
  | cons x rest =>
    obtain ⟨i, r⟩ := x
    rw [hs] at hp hm
    rw [List.pairwise_cons] at hp
    have hx1 := hm (i, r) (by simp)
    simp only at hx1
    refine blocksFrom_ratio reads num den gap hnd rest _ _ _ _
      (fun y hy => ⟨hm y (List.mem_cons_of_mem _ hy), hp.1 y hy⟩) hp.2 (by omega) ?_ (by simp) ?_
    · simp [neededBy, hx1]
    · simp only [List.length_singleton, Nat.sub_self, Nat.mul_zero, Nat.add_zero]
      rw [Nat.add_sub_cancel_left, Nat.mul_comm num]
      exact Nat.mul_le_mul_left _ hnd

/-! ## The number of requests -/

/-- Whether a read begins a group. -/
def isStarter (gap : Nat) (reads : List Read) (r : Read) : Bool :=
  reads.all fun s => decide (s.offset < r.offset → s.offset + s.length + gap < r.offset)

theorem isStarter_of (gap : Nat) (reads : List Read) (r : Read) (stop : Nat) (h : stop + gap < r.offset)
    (hs : ∀ s ∈ reads, s.offset < r.offset → s.offset + s.length ≤ stop) : isStarter gap reads r = true := by
  unfold isStarter
  rw [List.all_eq_true]
  intro s hsm
  rw [decide_eq_true_eq]
  intro hlt
  have := hs s hsm hlt
  omega

theorem blocksFrom_starters (reads : List Read) (within : Nat → Nat → Bool) (gap : Nat)
    (rest : List (Nat × Read)) : ∀ (start stop needed : Nat) (members : List Nat),
    rest.Pairwise (fun a b => a.2.offset ≤ b.2.offset) →
    (∀ s ∈ reads, s.offset + s.length ≤ stop ∨ s ∈ rest.map Prod.snd) →
    (blocksFrom within gap start stop needed members rest).length ≤
      1 + ((rest.map Prod.snd).filter (isStarter gap reads)).length := by
  induction rest with
  | nil => intro start stop needed members _ _; simp [blocksFrom]
  | cons x rest ih =>
    intro start stop needed members hp hs
    obtain ⟨i, r⟩ := x
    rw [List.pairwise_cons] at hp
    simp only [blocksFrom]
    have hle : ((rest.map Prod.snd).filter (isStarter gap reads)).length ≤
        ((((i, r) :: rest).map Prod.snd).filter (isStarter gap reads)).length := by
      rw [List.map_cons, List.filter_cons]
      split
      · rw [List.length_cons]; omega
      · exact Nat.le_refl _
    split
    · have := ih start (max stop (r.offset + r.length)) (needed + r.length) (members ++ [i]) hp.2 (by
        intro s hsm
        rcases hs s hsm with h | h
        · exact Or.inl (by omega)
        · rw [List.map_cons] at h
          rcases List.mem_cons.1 h with rfl | h
          · exact Or.inl (by omega)
          · exact Or.inr h)
      omega
    · rename_i hn
      have hgap : stop + gap < r.offset := by
        have : ¬ r.offset ≤ stop + gap := fun h => hn (Or.inl h)
        omega
      have hst : isStarter gap reads r = true := by
        apply isStarter_of gap reads r stop hgap
        intro s hsm hlt
        rcases hs s hsm with h | h
        · exact h
        · rw [List.map_cons] at h
          rcases List.mem_cons.1 h with rfl | h
          · omega
          · obtain ⟨y, hy, rfl⟩ := List.mem_map.1 h
            have := hp.1 y hy
            simp only at this
            omega
      have := ih r.offset (r.offset + r.length) r.length [i] hp.2 (by
        intro s hsm
        rcases hs s hsm with h | h
        · exact Or.inl (by omega)
        · rw [List.map_cons] at h
          rcases List.mem_cons.1 h with rfl | h
          · exact Or.inl (Nat.le_refl _)
          · exact Or.inr h)
      rw [List.length_cons, List.map_cons, List.filter_cons, if_pos hst, List.length_cons]
      omega

theorem sortedReads_perm (reads : List Read) : ((sortedReads reads).map Prod.snd).Perm reads := by
  unfold sortedReads
  have h := (List.mergeSort_perm (reads.zipIdx.map fun x => (x.2, x.1))
    (fun a b : Nat × Read => decide (a.2.offset ≤ b.2.offset))).map Prod.snd
  rw [List.map_map] at h
  have he : (Prod.snd ∘ fun x : Read × Nat => (x.2, x.1)) = Prod.fst := rfl
  rw [he] at h
  simpa using h

/-- C80: the number of coalesced reads is at most the number of groups of runs that are more than the
gap floor apart, whatever the ratio. -/
theorem C80_requests (within : Nat → Nat → Bool) (gap : Nat) (reads : List Read) :
    (partitionRuns within gap reads).length ≤ (starters gap reads).length := by
  have hp := sortedReads_pairwise reads
  have hperm := sortedReads_perm reads
  have hlen : (starters gap reads).length =
      (((sortedReads reads).map Prod.snd).filter (isStarter gap reads)).length := by
    exact ((hperm.filter (isStarter gap reads)).length_eq).symm
  rw [hlen]
  unfold partitionRuns
  cases hs : sortedReads reads with
  | nil => simp
  | cons x rest =>
    obtain ⟨i, r⟩ := x
    rw [hs] at hp hperm
    rw [List.pairwise_cons] at hp
    have hst : isStarter gap reads r = true := by
      unfold isStarter
      rw [List.all_eq_true]
      intro s hsm
      rw [decide_eq_true_eq]
      intro hlt
      have := hperm.mem_iff.2 hsm
      rw [List.map_cons] at this
      rcases List.mem_cons.1 this with rfl | h
      · omega
      · obtain ⟨y, hy, rfl⟩ := List.mem_map.1 h
        have := hp.1 y hy
        simp only at this
        omega
    simp only [List.map_cons, List.filter_cons, hst, if_true, List.length_cons]
    have := blocksFrom_starters reads within gap rest r.offset (r.offset + r.length) r.length [i] hp.2 (by
      intro s hsm
      have := hperm.mem_iff.2 hsm
      rw [List.map_cons] at this
      rcases List.mem_cons.1 this with rfl | h
      · exact Or.inl (Nat.le_refl _)
      · exact Or.inr h)
    omega

/-! ## The automatic ratio -/

theorem autoScan_starters (reads : List Read) (gap : Nat) (rest : List (Nat × Nat)) :
    ∀ (needed numReads prevEnd : Nat),
    rest.Pairwise (fun a b => a.1 ≤ b.1) →
    (∀ s ∈ reads, s.offset + s.length ≤ prevEnd ∨ (s.offset, s.length) ∈ rest) →
    (autoScan gap rest needed numReads prevEnd).2.1 ≤ numReads +
      (rest.filter fun x => isStarter gap reads ⟨x.1, x.2, x.2⟩).length := by
  induction rest with
  | nil => intro _ _ _ _ _; simp [autoScan]
  | cons x rest ih =>
    intro needed numReads prevEnd hp hs
    obtain ⟨o, l⟩ := x
    rw [List.pairwise_cons] at hp
    simp only [autoScan]
    have := ih (needed + l) (if o > prevEnd + gap then numReads + 1 else numReads) (max prevEnd (o + l))
      hp.2 (by
        intro s hsm
        rcases hs s hsm with h | h
        · exact Or.inl (by omega)
        · rcases List.mem_cons.1 h with h | h
          · simp only [Prod.mk.injEq] at h
            exact Or.inl (by omega)
          · exact Or.inr h)
    rw [List.filter_cons]
    by_cases hg : o > prevEnd + gap
    · rw [if_pos hg] at this ⊢
      have hst : isStarter gap reads ⟨o, l, l⟩ = true := by
        apply isStarter_of gap reads _ prevEnd hg
        intro s hsm hlt
        rcases hs s hsm with h | h
        · exact h
        · rcases List.mem_cons.1 h with h | h
          · simp only [Prod.mk.injEq] at h
            simp only at hlt
            omega
          · have := hp.1 _ h
            simp only at this hlt
            omega
      rw [if_pos hst, List.length_cons]
      omega
    · rw [if_neg hg] at this ⊢
      split
      · rw [List.length_cons]; omega
      · exact this

theorem pairLe_pairwise (runs : List (Nat × Nat)) : (runs.mergeSort pairLe).Pairwise fun a b => a.1 ≤ b.1 := by
  have := List.pairwise_mergeSort (le := pairLe)
    (by
      intro a b c h1 h2
      simp only [pairLe, Bool.or_eq_true, Bool.and_eq_true, decide_eq_true_eq] at *
      omega)
    (by
      intro a b
      simp only [pairLe, Bool.or_eq_true, Bool.and_eq_true, decide_eq_true_eq]
      omega) runs
  refine List.Pairwise.imp ?_ this
  intro a b h
  simp only [pairLe, Bool.or_eq_true, Bool.and_eq_true, decide_eq_true_eq] at h
  omega

theorem isStarter_congr (gap : Nat) (reads : List Read) (r s : Read) (h : r.offset = s.offset) :
    isStarter gap reads r = isStarter gap reads s := by
  unfold isStarter
  rw [h]

theorem auto_one (gap maxReads : Nat) (reads : List Read) (h : (starters gap reads).length ≤ maxReads) :
    autoRatio gap maxReads (reads.map fun r => (r.offset, r.length)) = (1, 1) := by
  have hperm := List.mergeSort_perm (reads.map fun r => (r.offset, r.length)) pairLe
  have hp := pairLe_pairwise (reads.map fun r => (r.offset, r.length))
  have hlen : ((List.mergeSort (reads.map fun r => (r.offset, r.length)) pairLe).filter
      fun x => isStarter gap reads ⟨x.1, x.2, x.2⟩).length = (starters gap reads).length := by
    rw [(hperm.filter _).length_eq, List.filter_map, List.length_map]
    rfl
  unfold autoRatio
  cases hs : List.mergeSort (reads.map fun r => (r.offset, r.length)) pairLe with
  | nil => rfl
  | cons x rest =>
    obtain ⟨o, l⟩ := x
    rw [hs] at hp hperm hlen
    rw [List.pairwise_cons] at hp
    have hst : isStarter gap reads ⟨o, l, l⟩ = true := by
      unfold isStarter
      rw [List.all_eq_true]
      intro s hsm
      rw [decide_eq_true_eq]
      intro hlt
      have := hperm.mem_iff.2 (List.mem_map.2 ⟨s, hsm, rfl⟩)
      rcases List.mem_cons.1 this with h' | h'
      · simp only [Prod.mk.injEq] at h'
        simp only at hlt
        omega
      · have := hp.1 _ h'
        simp only at this hlt
        omega
    have h1 := autoScan_starters reads gap rest (0 + l) 1 (max o (o + l)) hp.2 (by
      intro s hsm
      have := hperm.mem_iff.2 (List.mem_map.2 ⟨s, hsm, rfl⟩)
      rcases List.mem_cons.1 this with h' | h'
      · simp only [Prod.mk.injEq] at h'
        exact Or.inl (by omega)
      · exact Or.inr h')
    rw [List.filter_cons, if_pos hst, List.length_cons] at hlen
    have h2 : (autoScan gap ((o, l) :: rest) 0 1 o).2.1 ≤ maxReads := by
      simp only [autoScan]
      rw [if_neg (by omega)]
      omega
    simp only
    rw [if_pos h2]

/-- C80: when the runs form at most the allowed number of groups, the automatic choice keeps within that
number of reads, and reads nothing but the needed bytes and the gaps below the floor. -/
theorem C80_auto_few (gap maxReads : Nat) (reads : List Read)
    (h : (starters gap reads).length ≤ maxReads) :
    (autoBlocks gap maxReads reads).length ≤ maxReads ∧
    ∀ b ∈ autoBlocks gap maxReads reads,
      b.stop - b.start ≤ neededBy reads b.members + gap * (b.members.length - 1) := by
  unfold autoBlocks
  rw [auto_one gap maxReads reads h]
  refine ⟨Nat.le_trans (C80_requests _ gap reads) h, ?_⟩
  intro b hb
  have := C80_over_read 1 1 gap (Nat.le_refl _) reads b hb
  rw [Nat.mul_one, Nat.one_mul, Nat.one_mul] at this
  exact this

/-! ### What goes wrong -/

/-- `n` single bytes, `step` apart, followed by one run of `big` bytes. -/
def sparseThenBig (n step big : Nat) : List Read :=
  (List.range n).map (fun k => ⟨k * step, 1, 1⟩) ++ [⟨n * step, big, big⟩]

theorem blocksFrom_sparse (within : Nat → Nat → Bool) (gap step : Nat) (hstep : gap + 1 < step)
    (hw : within (step + 1) 2 = false) (last : Nat × Read) (m : Nat) : ∀ k,
    m + 1 ≤ (blocksFrom within gap (k * step) (k * step + 1) 1 [k]
      ((List.range' (k + 1) m).map (fun j => (j, (⟨j * step, 1, 1⟩ : Read))) ++ [last])).length := by
  induction m with
  | zero =>
    intro k
    simp only [List.range'_zero, List.map_nil, List.nil_append, blocksFrom]
    split <;> simp
  | succ m ih =>
    intro k
    rw [List.range'_succ, List.map_cons, List.cons_append]
    simp only [blocksFrom]
    have hmul : (k + 1) * step = k * step + step := Nat.succ_mul _ _
    rw [if_neg (by
      rintro (h | h)
      · omega
      · have : max (k * step + 1) ((k + 1) * step + 1) - k * step = step + 1 := by omega
        rw [this, hw] at h
        cases h)]
    rw [List.length_cons]
    have := ih (k + 1)
    omega

theorem sortedReads_sorted (reads : List Read) (h : reads.Pairwise fun a b => a.offset ≤ b.offset) :
    sortedReads reads = reads.zipIdx.map fun x => (x.2, x.1) := by
  unfold sortedReads
  apply List.mergeSort_of_pairwise
  rw [List.pairwise_map]
  have : (reads.zipIdx.map Prod.fst).Pairwise fun a b : Read => a.offset ≤ b.offset := by simpa using h
  rw [List.pairwise_map] at this
  exact this.imp fun h => decide_eq_true h

theorem sparse_pairwise (n step big : Nat) :
    (sparseThenBig n step big).Pairwise fun a b => a.offset ≤ b.offset := by
  unfold sparseThenBig
  rw [List.pairwise_append]
  refine ⟨?_, by simp, ?_⟩
  · rw [List.pairwise_map]
    refine List.Pairwise.imp ?_ List.pairwise_lt_range
    intro a b hab
    exact Nat.mul_le_mul_right _ (Nat.le_of_lt hab)
  · intro a ha b hb
    obtain ⟨k, hk, rfl⟩ := List.mem_map.1 ha
    simp only [List.mem_singleton] at hb
    subst hb
    exact Nat.mul_le_mul_right _ (Nat.le_of_lt (List.mem_range.1 hk))

theorem autoScan_sparse (gap step : Nat) (hstep : gap + 1 < step) (tail : List (Nat × Nat)) (m : Nat) :
    ∀ k needed numReads,
    autoScan gap ((List.range' (k + 1) m).map (fun j => (j * step, 1)) ++ tail) needed numReads
        (k * step + 1) = autoScan gap tail (needed + m) (numReads + m) ((k + m) * step + 1) := by
  induction m with
  | zero => intro k needed numReads; simp
  | succ m ih =>
    intro k needed numReads
    have hmul : (k + 1) * step = k * step + step := Nat.succ_mul _ _
    rw [List.range'_succ, List.map_cons, List.cons_append]
    simp only [autoScan]
    rw [if_pos (by omega)]
    have hmax : max (k * step + 1) ((k + 1) * step + 1) = (k + 1) * step + 1 := by omega
    rw [hmax, ih (k + 1)]
    have e1 : needed + 1 + m = needed + (m + 1) := by omega
    have e2 : numReads + 1 + m = numReads + (m + 1) := by omega
    have e3 : k + 1 + m = k + (m + 1) := by omega
    rw [e1, e2, e3]

/-- C80 (finding): the automatic ratio does not bound the number of reads. For every `n` there is a plan
of disjoint runs - `n + 1` single bytes ten thousand bytes apart, then one long run - for which the
automatic ratio is used and more than `n` separate reads remain. -/
theorem C80_many_reads_fails (n : Nat) (hn : 1024 ≤ n) :
    ∃ reads : List Read, reads.Pairwise (fun a b => a.offset + a.length ≤ b.offset) ∧
      n < (autoBlocks 4096 1024 reads).length := by
  refine ⟨sparseThenBig (n + 1) 10000 (20000 * (n + 1)), ?_, ?_⟩
  · unfold sparseThenBig
    rw [List.pairwise_append]
    refine ⟨?_, by simp, ?_⟩
    · rw [List.pairwise_map]
      refine List.Pairwise.imp ?_ List.pairwise_lt_range
      intro a b hab
      simp only
      omega
    · intro a ha b hb
      obtain ⟨k, hk, rfl⟩ := List.mem_map.1 ha
      simp only [List.mem_singleton] at hb
      subst hb
      have := List.mem_range.1 hk
      simp only
      omega
  · have hsp := sparse_pairwise (n + 1) 10000 (20000 * (n + 1))
    have hratio : autoRatio 4096 1024 ((sparseThenBig (n + 1) 10000 (20000 * (n + 1))).map
        fun r => (r.offset, r.length)) = (30000 * (n + 1), 20001 * (n + 1)) := by
      have hms : List.mergeSort ((sparseThenBig (n + 1) 10000 (20000 * (n + 1))).map
          fun r => (r.offset, r.length)) pairLe = (0, 1) ::
          ((List.range' (0 + 1) n).map (fun j => (j * 10000, 1)) ++
            [((n + 1) * 10000, 20000 * (n + 1))]) := by
        rw [List.mergeSort_of_pairwise]
        · simp only [sparseThenBig, List.range_eq_range', List.range'_succ, List.map_append, List.map_cons,
            List.map_map, List.map_nil, List.cons_append]
          simp only [Nat.zero_mul, Function.comp_def, Nat.zero_add]
        · rw [List.pairwise_map]
          unfold sparseThenBig
          rw [List.pairwise_append]
          refine ⟨?_, by simp, ?_⟩
          · rw [List.pairwise_map]
            refine List.Pairwise.imp ?_ List.pairwise_lt_range
            intro a b hab
            simp only [pairLe, Bool.or_eq_true, Bool.and_eq_true, decide_eq_true_eq]
            omega
          · intro a ha b hb
            obtain ⟨k, hk, rfl⟩ := List.mem_map.1 ha
            simp only [List.mem_singleton] at hb
            subst hb
            have := List.mem_range.1 hk
            simp only [pairLe, Bool.or_eq_true, Bool.and_eq_true, decide_eq_true_eq]
            omega
      unfold autoRatio
      rw [hms]
      have hscan : autoScan 4096 ((0, 1) :: ((List.range' (0 + 1) n).map (fun j => (j * 10000, 1)) ++
          [((n + 1) * 10000, 20000 * (n + 1))])) 0 1 0 =
          (20001 * (n + 1), n + 2, 30000 * (n + 1)) := by
        simp only [autoScan]
        rw [if_neg (by omega)]
        have h0 : max 0 (0 + 1) = 0 * 10000 + 1 := by omega
        rw [h0, autoScan_sparse 4096 10000 (by omega)]
        simp only [autoScan]
        rw [if_pos (by omega)]
        simp only [Prod.mk.injEq]
        omega
      simp only [hscan]
      rw [if_neg (by omega), if_pos (by omega), Nat.sub_zero]
    unfold autoBlocks
    rw [hratio]
    unfold partitionRuns
    rw [sortedReads_sorted _ hsp]
    have hz : (sparseThenBig (n + 1) 10000 (20000 * (n + 1))).zipIdx.map (fun x => (x.2, x.1)) =
        (0, ⟨0, 1, 1⟩) :: ((List.range' (0 + 1) n).map (fun j => (j, (⟨j * 10000, 1, 1⟩ : Read))) ++
          [(n + 1, ⟨(n + 1) * 10000, 20000 * (n + 1), 20000 * (n + 1)⟩)]) := by
      apply List.ext_getElem?
      intro i
      simp only [List.getElem?_map, List.getElem?_zipIdx, sparseThenBig]
      cases i with
      | zero => simp
      | succ i =>
        rw [List.getElem?_cons_succ]
        simp only [List.getElem?_append, List.length_map, List.length_range, List.length_range',
          List.getElem?_map]
        by_cases hi : i < n
        · rw [if_pos (by omega), if_pos hi, List.getElem?_range (by omega), List.getElem?_range' hi]
          simp only [Option.map_some, Option.some.injEq, Prod.mk.injEq, Read.mk.injEq, and_true]
          refine ⟨by omega, ?_⟩
          congr 1
          omega
        · rw [if_neg (by omega), if_neg hi]
          have : i + 1 - (n + 1) = i - n := by omega
          rw [this]
          cases hd : i - n with
          | zero =>
            simp only [List.getElem?_cons_zero, Option.map_some, Option.some.injEq, Prod.mk.injEq, and_true]
            omega
          | succ d => simp
    rw [hz]
    have := blocksFrom_sparse (ratioWithin (30000 * (n + 1), 20001 * (n + 1))) 4096 10000 (by omega) (by
      unfold ratioWithin
      rw [decide_eq_false_iff_not]
      simp only
      omega) (n + 1, ⟨(n + 1) * 10000, 20000 * (n + 1), 20000 * (n + 1)⟩) n 0
    simp only [Nat.zero_mul] at this
    simp only
    omega

/-- C80 (finding): with `max_over_read_ratio=1.0`, documented as no over-read, two single bytes a page
apart are read with the whole page between them. -/
theorem C80_floor_over_read_fails :
    partitionRuns (ratioWithin (1, 1)) 4096 [⟨0, 1, 1⟩, ⟨4097, 1, 1⟩] = [⟨0, 4098, [0, 1]⟩] := by
  unfold partitionRuns
  rw [sortedReads_sorted _ (by simp)]
  rfl

theorem C80_nonvacuous :
    (starters 10 [⟨100, 5, 5⟩, ⟨0, 5, 5⟩, ⟨12, 5, 5⟩]).length = 2 ∧
    partitionRuns (ratioWithin (3, 2)) 10 [⟨0, 5, 5⟩, ⟨12, 5, 5⟩, ⟨100, 5, 5⟩] =
      [⟨0, 17, [0, 1]⟩, ⟨100, 105, [2]⟩] := by
  refine ⟨by decide, ?_⟩
  unfold partitionRuns
  rw [sortedReads_sorted _ (by simp)]
  rfl

end Verif.Safetensors
