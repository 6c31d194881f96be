import Verif.Safetensors.RunsProps

/-!
# C78: coalesced, chunked and concurrent reads fill every buffer with the right bytes
-/
namespace Verif.Safetensors

/-! ## Sorting -/

theorem mem_sortedReads (reads : List Read) (i : Nat) (r : Read) :
    (i, r) ∈ sortedReads reads ↔ reads[i]? = some r := by
  unfold sortedReads
  rw [(List.mergeSort_perm _ _).mem_iff, List.mem_map]
  constructor
  · rintro ⟨⟨r', i'⟩, h, he⟩
    simp only [Prod.mk.injEq] at he
    obtain ⟨rfl, rfl⟩ := he
    exact List.mem_zipIdx_iff_getElem?.1 h
  · intro h
    exact ⟨(r, i), List.mem_zipIdx_iff_getElem?.2 h, rfl⟩

theorem sortedReads_pairwise (reads : List Read) :
    (sortedReads reads).Pairwise fun a b => a.2.offset ≤ b.2.offset := by
  have := List.pairwise_mergeSort (le := fun a b : Nat × Read => decide (a.2.offset ≤ b.2.offset))
    (by intro a b c h1 h2; simp only [decide_eq_true_eq] at *; omega)
    (by intro a b; simp only [Bool.or_eq_true, decide_eq_true_eq]; omega)
    (reads.zipIdx.map fun x => (x.2, x.1))
  exact List.Pairwise.imp (fun h => of_decide_eq_true h) this

theorem readAt_of (reads : List Read) (i : Nat) (r : Read) (h : reads[i]? = some r) : readAt reads i = r := by
  simp [readAt, h]

/-! ## Blocks -/

/-- A block that covers its members, which are in the order of their offsets and end before `limit`. -/
structure BlockOK (reads : List Read) (limit : Nat) (b : Block) : Prop where
  inside : ∀ i ∈ b.members, b.start ≤ (readAt reads i).offset ∧
    (readAt reads i).offset + (readAt reads i).length ≤ b.stop
  ordered : b.members.Pairwise fun i j => (readAt reads i).offset ≤ (readAt reads j).offset
  limited : b.stop ≤ limit

theorem blocksFrom_ok (reads : List Read) (limit : Nat) (within : Nat → Nat → Bool) (gap : Nat)
    (rest : List (Nat × Read)) : ∀ (start stop needed : Nat) (members : List Nat),
    (∀ x ∈ rest, readAt reads x.1 = x.2 ∧ x.2.offset + x.2.length ≤ limit) →
    rest.Pairwise (fun a b => a.2.offset ≤ b.2.offset) →
    BlockOK reads limit ⟨start, stop, members⟩ →
    (∀ x ∈ rest, start ≤ x.2.offset ∧ ∀ i ∈ members, (readAt reads i).offset ≤ x.2.offset) →
    (∀ b ∈ blocksFrom within gap start stop needed members rest, BlockOK reads limit b) ∧
    (blocksFrom within gap start stop needed members rest).flatMap Block.members =
      members ++ rest.map Prod.fst := by
  induction rest with
  | nil =>
    intro start stop needed members _ _ hb _
    refine ⟨?_, by simp [blocksFrom]⟩
    intro b h
    simp only [blocksFrom, List.mem_singleton] at h
    subst h; exact hb
  | cons x rest ih =>
    intro start stop needed members hr hp hb hs
    obtain ⟨i, r⟩ := x
    rw [List.pairwise_cons] at hp
    obtain ⟨hx1, hx2⟩ := hr (i, r) (by simp)
    obtain ⟨hs1, hs2⟩ := hs (i, r) (by simp)
    simp only at hx1 hx2 hs1 hs2
    simp only [blocksFrom]
    split
    · have hb' : BlockOK reads limit ⟨start, max stop (r.offset + r.length), members ++ [i]⟩ := by
        refine ⟨?_, ?_, ?_⟩
        · intro j hj
          rcases List.mem_append.1 hj with hj | hj
          · have := hb.inside j hj
            simp only at this ⊢
            omega
          · simp only [List.mem_singleton] at hj
            subst hj
            rw [hx1]
            simp only
            omega
        · simp only [List.pairwise_append]
          refine ⟨hb.ordered, by simp, ?_⟩
          intro a ha c hc
          simp only [List.mem_singleton] at hc
          subst hc
          rw [hx1]
          exact hs2 a ha
        · have := hb.limited
          simp only at this ⊢
          omega
      obtain ⟨h1, h2⟩ := ih start _ (needed + r.length) (members ++ [i])
        (fun y hy => hr y (List.mem_cons_of_mem _ hy)) hp.2 hb' (by
          intro y hy
          refine ⟨(hs y (List.mem_cons_of_mem _ hy)).1, ?_⟩
          intro j hj
          rcases List.mem_append.1 hj with hj | hj
          · exact (hs y (List.mem_cons_of_mem _ hy)).2 j hj
          · simp only [List.mem_singleton] at hj
            subst hj
            rw [hx1]
            exact hp.1 y hy)
      exact ⟨h1, by rw [h2]; simp⟩
    · obtain ⟨h1, h2⟩ := ih r.offset (r.offset + r.length) r.length [i]
        (fun y hy => hr y (List.mem_cons_of_mem _ hy)) hp.2
        ⟨by intro j hj; simp only [List.mem_singleton] at hj; subst hj; rw [hx1]; simp,
          by simp, hx2⟩ (by
          intro y hy
          refine ⟨hp.1 y hy, ?_⟩
          intro j hj
          simp only [List.mem_singleton] at hj
          subst hj
          rw [hx1]
          exact hp.1 y hy)
      constructor
      · intro b hbm
        rcases List.mem_cons.1 hbm with rfl | hbm
        · exact hb
        · exact h1 b hbm
      · rw [List.flatMap_cons, h2]
        simp

theorem partition_ok (reads : List Read) (limit : Nat)
    (hl : ∀ r ∈ reads, r.offset + r.length ≤ limit) (within : Nat → Nat → Bool) (gap : Nat) :
    (∀ b ∈ partitionRuns within gap reads, BlockOK reads limit b) ∧
    (partitionRuns within gap reads).flatMap Block.members = (sortedReads reads).map Prod.fst := by
  have hp := sortedReads_pairwise reads
  have hm : ∀ x ∈ sortedReads reads, readAt reads x.1 = x.2 ∧ x.2.offset + x.2.length ≤ limit := by
    intro x hx
    have := (mem_sortedReads reads x.1 x.2).1 hx
    exact ⟨readAt_of _ _ _ this, hl _ (List.mem_of_getElem? this)⟩
  unfold partitionRuns
  cases hs : sortedReads reads with
  | nil => simp
  | cons x rest =>
    obtain ⟨i, r⟩ := x
    rw [hs] at hp hm
    rw [List.pairwise_cons] at hp
    obtain ⟨hx1, hx2⟩ := hm (i, r) (by simp)
    simp only at hx1 hx2
    obtain ⟨h1, h2⟩ := blocksFrom_ok reads limit within gap rest r.offset (r.offset + r.length) r.length [i]
      (fun y hy => hm y (List.mem_cons_of_mem _ hy)) hp.2
      ⟨by intro j hj; simp only [List.mem_singleton] at hj; subst hj; rw [hx1]; simp,
        by simp, hx2⟩ (by
        intro y hy
        refine ⟨hp.1 y hy, ?_⟩
        intro j hj
        simp only [List.mem_singleton] at hj
        subst hj
        rw [hx1]
        exact hp.1 y hy)
    exact ⟨h1, by rw [h2]; simp⟩

/-! ## Chunks -/

theorem mem_dropWhile {α : Type} (p : α → Bool) (l : List α) (x : α) (hx : x ∈ l) (hp : p x = false) :
    x ∈ l.dropWhile p := by
  induction l with
  | nil => cases hx
  | cons y l ih =>
    rw [List.dropWhile_cons]
    split
    · rename_i hy
      rcases List.mem_cons.1 hx with rfl | hx
      · rw [hp] at hy; cases hy
      · exact ih hx
    · exact hx

theorem mem_takeWhile_ordered {α : Type} (f : α → Nat) (l : List α) (x : α) (c : Nat)
    (ho : l.Pairwise fun a b => f a ≤ f b) (hx : x ∈ l) (hc : f x < c) :
    x ∈ l.takeWhile fun a => decide (f a < c) := by
  induction l with
  | nil => cases hx
  | cons y l ih =>
    rw [List.pairwise_cons] at ho
    have hy : f y < c := by
      rcases List.mem_cons.1 hx with rfl | hx
      · exact hc
      · have := ho.1 x hx; omega
    rw [List.takeWhile_cons, if_pos (by simpa using hy)]
    rcases List.mem_cons.1 hx with rfl | hx
    · simp
    · exact List.mem_cons_of_mem _ (ih ho.2 hx)

theorem chunksFrom_cover (reads : List Read) (blockEnd chunkBytes : Nat) (starts : List Nat) :
    ∀ (members : List Nat) (i c : Nat) (w : Write),
      members.Pairwise (fun i j => (readAt reads i).offset ≤ (readAt reads j).offset) →
      starts.Pairwise (· ≤ ·) → i ∈ members → c ∈ starts →
      c < (readAt reads i).offset + (readAt reads i).length →
      (readAt reads i).offset < min (c + chunkBytes) blockEnd →
      writeOf reads c (min (c + chunkBytes) blockEnd) i = some w →
      ∃ ch ∈ chunksFrom reads blockEnd chunkBytes members starts, w ∈ ch.writes := by
  induction starts with
  | nil => intro _ _ c _ _ _ _ hc; cases hc
  | cons c0 starts ih =>
    intro members i c w ho hs hi hc h1 h2 hw
    rw [List.pairwise_cons] at hs
    have hle : c0 ≤ c := by
      rcases List.mem_cons.1 hc with rfl | hc
      · exact Nat.le_refl _
      · exact hs.1 c hc
    have hrest : i ∈ members.dropWhile fun i =>
        decide ((readAt reads i).offset + (readAt reads i).length ≤ c0) :=
      mem_dropWhile _ _ _ hi (by simp only [decide_eq_false_iff_not]; omega)
    have hor := ho.sublist (List.dropWhile_sublist (fun i =>
        decide ((readAt reads i).offset + (readAt reads i).length ≤ c0)))
    simp only [chunksFrom]
    by_cases hcc : c = c0
    · subst hcc
      refine ⟨_, List.mem_cons_self, ?_⟩
      simp only [List.mem_filterMap]
      exact ⟨i, mem_takeWhile_ordered (fun i => (readAt reads i).offset) _ i _ hor hrest h2, hw⟩
    · have hc' : c ∈ starts := by
        rcases List.mem_cons.1 hc with h | h
        · exact absurd h hcc
        · exact h
      obtain ⟨ch, hch, hwc⟩ := ih _ i c w hor hs.2 hrest hc' h1 h2 hw
      exact ⟨ch, List.mem_cons_of_mem _ hch, hwc⟩

theorem chunksFrom_sound (reads : List Read) (blockEnd chunkBytes : Nat) (starts : List Nat) :
    ∀ (members : List Nat) (ch : Chunk), ch ∈ chunksFrom reads blockEnd chunkBytes members starts →
      ch.offset ∈ starts ∧ ch.length = min (ch.offset + chunkBytes) blockEnd - ch.offset ∧
      ∀ w ∈ ch.writes, ∃ i ∈ members,
        writeOf reads ch.offset (min (ch.offset + chunkBytes) blockEnd) i = some w := by
  induction starts with
  | nil => intro _ ch h; simp [chunksFrom] at h
  | cons c0 starts ih =>
    intro members ch h
    simp only [chunksFrom] at h
    rcases List.mem_cons.1 h with rfl | h
    · refine ⟨by simp, rfl, ?_⟩
      intro w hw
      obtain ⟨i, hi, he⟩ := List.mem_filterMap.1 hw
      exact ⟨i, (List.dropWhile_sublist _).mem ((List.takeWhile_sublist _).mem hi), he⟩
    · obtain ⟨h1, h2, h3⟩ := ih _ ch h
      refine ⟨List.mem_cons_of_mem _ h1, h2, ?_⟩
      intro w hw
      obtain ⟨i, hi, he⟩ := h3 w hw
      exact ⟨i, (List.dropWhile_sublist _).mem hi, he⟩

theorem stepRange_cover (start stop step x : Nat) (hs : 0 < step) (h1 : start ≤ x) (h2 : x < stop) :
    ∃ c ∈ stepRange start stop step, c ≤ x ∧ x < c + step := by
  have hd := Nat.div_add_mod (x - start) step
  have hm := Nat.mod_lt (x - start) hs
  rw [Nat.mul_comm] at hd
  refine ⟨start + (x - start) / step * step, ?_, by omega, by omega⟩
  unfold stepRange
  refine List.mem_map.2 ⟨(x - start) / step, ?_, rfl⟩
  rw [List.mem_range, Nat.lt_iff_add_one_le, Nat.le_div_iff_mul_le hs, Nat.add_mul]
  omega

theorem stepRange_mem (start stop step c : Nat) (hs : 0 < step) (h : c ∈ stepRange start stop step) :
    start ≤ c ∧ c < stop := by
  unfold stepRange at h
  obtain ⟨k, hk, rfl⟩ := List.mem_map.1 h
  rw [List.mem_range, Nat.lt_iff_add_one_le, Nat.le_div_iff_mul_le hs, Nat.add_mul] at hk
  omega

theorem stepRange_pairwise (start stop step : Nat) :
    (stepRange start stop step).Pairwise fun a b => a + step ≤ b := by
  unfold stepRange
  rw [List.pairwise_map]
  refine List.Pairwise.imp ?_ List.pairwise_lt_range
  intro a b h
  have := Nat.mul_le_mul_right step (Nat.succ_le_of_lt h)
  rw [Nat.succ_mul] at this
  omega

/-! ## Copies -/

theorem writeOf_some (reads : List Read) (c ce i : Nat) (w : Write) (h : writeOf reads c ce i = some w) :
    w.member = i ∧ w.dstLo < w.dstHi ∧ w.dstHi ≤ (readAt reads i).length ∧
      (readAt reads i).offset + w.dstLo = c + w.start ∧ w.stop - w.start = w.dstHi - w.dstLo ∧
      w.start < w.stop ∧ c + w.stop ≤ ce := by
  simp only [writeOf] at h
  split at h
  · cases h
    refine ⟨rfl, ?_, ?_, ?_, ?_, ?_, ?_⟩ <;> simp only <;> omega
  · cases h

/-- A copy that takes the right bytes out of a chunk. -/
structure Good (reads : List Read) (ch : Chunk) (w : Write) : Prop where
  lt : w.dstLo < w.dstHi
  le : w.dstHi ≤ (readAt reads w.member).length
  at_ : (readAt reads w.member).offset + w.dstLo = ch.offset + w.start
  len : w.stop - w.start = w.dstHi - w.dstLo
  pos : w.start < w.stop
  inside : w.stop ≤ ch.length

theorem execWrite_good (file : Bytes) (reads : List Read) (ch : Chunk) (w : Write) (mem : Mem)
    (hg : Good reads ch w) (hd : (readAt reads w.member).dstLen = (readAt reads w.member).length)
    (hf : ch.offset + ch.length ≤ file.length) :
    ∃ mem', execWrite reads (slice file ch.offset ch.length) mem w = some mem' ∧
      ∀ i j, mem' i j = if i = w.member ∧ w.dstLo ≤ j ∧ j < w.dstHi then
        file[(readAt reads i).offset + j]? else mem i j := by
  have h1 : slice (slice file ch.offset ch.length) w.start (w.stop - w.start) =
      slice file (ch.offset + w.start) (w.stop - w.start) := by
    apply slice_slice
    have := hg.inside; have := hg.pos; omega
  have h2 : (slice file (ch.offset + w.start) (w.stop - w.start)).length = w.stop - w.start := by
    apply slice_length
    have := hg.inside; have := hg.pos; omega
  have hlo : min w.dstLo (readAt reads w.member).dstLen = w.dstLo := by
    rw [hd]; have := hg.lt; have := hg.le; omega
  have hhi : min w.dstHi (readAt reads w.member).dstLen = w.dstHi := by
    rw [hd]; have := hg.le; omega
  rw [hg.len] at h1 h2
  unfold execWrite
  simp only [hg.len, h1, h2, hlo, hhi, true_or, if_true]
  refine ⟨_, rfl, ?_⟩
  intro i j
  by_cases hc : i = w.member ∧ w.dstLo ≤ j ∧ j < w.dstHi
  · simp only [hc, and_self, if_true]
    simp only [slice]
    rw [List.getElem?_take_of_lt (by omega), List.getElem?_drop]
    congr 1
    have := hg.at_
    omega
  · simp only [hc, if_false]

theorem execWrites_good (file : Bytes) (reads : List Read) (ch : Chunk)
    (hf : ch.offset + ch.length ≤ file.length) (ws : List Write)
    (hg : ∀ w ∈ ws, Good reads ch w ∧ (readAt reads w.member).dstLen = (readAt reads w.member).length) :
    ∀ mem, ∃ mem', execWrites reads (slice file ch.offset ch.length) mem ws = some mem' ∧
      ∀ i j, (mem' i j = mem i j ∧ ¬ ∃ w ∈ ws, i = w.member ∧ w.dstLo ≤ j ∧ j < w.dstHi) ∨
        (mem' i j = file[(readAt reads i).offset + j]? ∧
          ∃ w ∈ ws, i = w.member ∧ w.dstLo ≤ j ∧ j < w.dstHi) := by
  induction ws with
  | nil => intro mem; exact ⟨mem, rfl, fun i j => Or.inl ⟨rfl, by simp⟩⟩
  | cons w ws ih =>
    intro mem
    obtain ⟨m1, h1, h1'⟩ := execWrite_good file reads ch w mem (hg w (by simp)).1 (hg w (by simp)).2 hf
    obtain ⟨m2, h2, h2'⟩ := ih (fun x hx => hg x (List.mem_cons_of_mem _ hx)) m1
    refine ⟨m2, by simp only [execWrites, h1]; exact h2, ?_⟩
    intro i j
    rcases h2' i j with ⟨e, hn⟩ | ⟨e, x, hx, hc⟩
    · rw [h1'] at e
      by_cases hc : i = w.member ∧ w.dstLo ≤ j ∧ j < w.dstHi
      · rw [if_pos hc] at e
        exact Or.inr ⟨e, w, by simp, hc⟩
      · rw [if_neg hc] at e
        refine Or.inl ⟨e, ?_⟩
        rintro ⟨x, hx, hc'⟩
        rcases List.mem_cons.1 hx with rfl | hx
        · exact hc hc'
        · exact hn ⟨x, hx, hc'⟩
    · exact Or.inr ⟨e, x, List.mem_cons_of_mem _ hx, hc⟩

theorem execChunks_good (file : Bytes) (reads : List Read) (cs : List Chunk)
    (hg : ∀ ch ∈ cs, ch.offset + ch.length ≤ file.length ∧ ∀ w ∈ ch.writes, Good reads ch w ∧
      (readAt reads w.member).dstLen = (readAt reads w.member).length) :
    ∀ mem, ∃ mem', execChunks file reads mem cs = some mem' ∧
      ∀ i j, (∃ ch ∈ cs, ∃ w ∈ ch.writes, i = w.member ∧ w.dstLo ≤ j ∧ j < w.dstHi) →
        mem' i j = file[(readAt reads i).offset + j]? := by
  suffices h : ∀ mem, ∃ mem', execChunks file reads mem cs = some mem' ∧
      ∀ i j, (mem' i j = mem i j ∧
          ¬ ∃ ch ∈ cs, ∃ w ∈ ch.writes, i = w.member ∧ w.dstLo ≤ j ∧ j < w.dstHi) ∨
        (mem' i j = file[(readAt reads i).offset + j]?) by
    intro mem
    obtain ⟨m, h1, h2⟩ := h mem
    refine ⟨m, h1, fun i j hc => ?_⟩
    rcases h2 i j with ⟨_, hn⟩ | h
    · exact absurd hc hn
    · exact h
  induction cs with
  | nil => intro mem; exact ⟨mem, rfl, fun i j => Or.inl ⟨rfl, by simp⟩⟩
  | cons ch cs ih =>
    intro mem
    obtain ⟨hf, hw⟩ := hg ch (by simp)
    obtain ⟨m1, h1, h1'⟩ := execWrites_good file reads ch hf ch.writes hw mem
    obtain ⟨m2, h2, h2'⟩ := ih (fun x hx => hg x (List.mem_cons_of_mem _ hx)) m1
    refine ⟨m2, by simp only [execChunks, h1]; exact h2, ?_⟩
    intro i j
    rcases h2' i j with ⟨e, hn⟩ | e
    · rcases h1' i j with ⟨e1, hn1⟩ | ⟨e1, _⟩
      · refine Or.inl ⟨e.trans e1, ?_⟩
        rintro ⟨x, hx, hc⟩
        rcases List.mem_cons.1 hx with rfl | hx
        · exact hn1 hc
        · exact hn ⟨x, hx, hc⟩
      · exact Or.inr (e.trans e1)
    · exact Or.inr e

/-! ## The plan -/

theorem le_sum_of_mem {l : List Nat} {x : Nat} (h : x ∈ l) : x ≤ l.sum := by
  induction l with
  | nil => cases h
  | cons a l ih =>
    rw [List.sum_cons]
    rcases List.mem_cons.1 h with rfl | h
    · omega
    · have := ih h; omega

theorem plan_good (within : Nat → Nat → Bool) (gap chunkBytes : Nat) (hc : 0 < chunkBytes)
    (reads : List Read) (limit : Nat) (hl : ∀ r ∈ reads, r.offset + r.length ≤ limit) :
    ∀ ch ∈ planChunks within gap chunkBytes reads,
      ch.offset + ch.length ≤ limit ∧ ch.length ≤ chunkBytes ∧ ∀ w ∈ ch.writes, Good reads ch w := by
  intro ch hch
  obtain ⟨b, hb, hch⟩ := List.mem_flatMap.1 hch
  have hok := (partition_ok reads limit hl within gap).1 b hb
  obtain ⟨h1, h2, h3⟩ := chunksFrom_sound _ _ _ _ _ _ hch
  have hr := stepRange_mem _ _ _ _ hc h1
  have hlim := hok.limited
  refine ⟨by omega, by omega, ?_⟩
  intro w hw
  obtain ⟨i, _, he⟩ := h3 w hw
  obtain ⟨e1, e2, e3, e4, e5, e6, e7⟩ := writeOf_some _ _ _ _ _ he
  subst e1
  exact ⟨e2, e3, e4, e5, e6, by omega⟩

theorem plan_cover (within : Nat → Nat → Bool) (gap chunkBytes : Nat) (hc : 0 < chunkBytes)
    (reads : List Read) (i : Nat) (r : Read) (hr : reads[i]? = some r) (j : Nat) (hj : j < r.length) :
    ∃ ch ∈ planChunks within gap chunkBytes reads, ∃ w ∈ ch.writes,
      i = w.member ∧ w.dstLo ≤ j ∧ j < w.dstHi := by
  have hra := readAt_of _ _ _ hr
  obtain ⟨hok, hmem⟩ := partition_ok reads (reads.map (fun r => r.offset + r.length)).sum (by
    intro r hr
    exact le_sum_of_mem (List.mem_map.2 ⟨r, hr, rfl⟩)) within gap
  have hi : i ∈ (partitionRuns within gap reads).flatMap Block.members := by
    rw [hmem]
    exact List.mem_map.2 ⟨(i, r), (mem_sortedReads _ _ _).2 hr, rfl⟩
  obtain ⟨b, hb, hib⟩ := List.mem_flatMap.1 hi
  have hbo := hok b hb
  obtain ⟨hin1, hin2⟩ := hbo.inside i hib
  rw [hra] at hin1 hin2
  obtain ⟨c, hcm, hc1, hc2⟩ := stepRange_cover b.start b.stop chunkBytes (r.offset + j) hc (by omega)
    (by omega)
  have hw : ∃ w, writeOf reads c (min (c + chunkBytes) b.stop) i = some w ∧
      w.dstLo ≤ j ∧ j < w.dstHi := by
    simp only [writeOf, hra]
    rw [if_pos (by omega)]
    exact ⟨_, rfl, by simp only; omega, by simp only; omega⟩
  obtain ⟨w, hw, hw1, hw2⟩ := hw
  obtain ⟨ch, hch, hwc⟩ := chunksFrom_cover reads b.stop chunkBytes (stepRange b.start b.stop chunkBytes)
    b.members i c w hbo.ordered
    (List.Pairwise.imp (fun h => by omega) (stepRange_pairwise b.start b.stop chunkBytes)) hib hcm
    (by rw [hra]; omega) (by rw [hra]; omega) hw
  exact ⟨ch, List.mem_flatMap.2 ⟨b, hb, hch⟩, w, hwc, (writeOf_some _ _ _ _ _ hw).1.symm, hw1, hw2⟩

theorem view_eq (file : Bytes) (mem : Mem) (i : Nat) (r : Read) (hd : r.dstLen = r.length)
    (hf : r.offset + r.length ≤ file.length)
    (hm : ∀ j, j < r.length → mem i j = file[r.offset + j]?) : viewOf mem i r = slice file r.offset r.length := by
  apply List.ext_getElem?
  intro k
  simp only [viewOf, List.getElem?_map, slice, hd]
  by_cases hk : k < r.length
  · rw [List.getElem?_range hk, List.getElem?_take_of_lt hk, List.getElem?_drop]
    simp only [Option.map_some, hm k hk]
    rw [List.getElem?_eq_getElem (by omega)]
    simp
  · rw [List.getElem?_eq_none (by simp; omega), List.getElem?_eq_none (by
      simp only [List.length_take, List.length_drop]; omega)]
    rfl

theorem flatMap_congr' {α β : Type} {l : List α} {f g : α → List β} (h : ∀ a ∈ l, f a = g a) :
    l.flatMap f = l.flatMap g := by
  induction l with
  | nil => rfl
  | cons a l ih =>
    rw [List.flatMap_cons, List.flatMap_cons, h a (by simp), ih fun b hb => h b (List.mem_cons_of_mem _ hb)]

theorem buffers_eq (file : Bytes) (mem : Mem) (shards : List (List Read)) : ∀ (pre : List Read),
    (∀ (i : Nat) (r : Read), (pre ++ shards.flatten)[i]? = some r →
      viewOf mem i r = slice file r.offset r.length) →
    buffersFrom mem pre.length shards =
      shards.map fun rs => rs.flatMap fun r => slice file r.offset r.length := by
  induction shards with
  | nil => intro _ _; rfl
  | cons rs rest ih =>
    intro pre h
    simp only [buffersFrom, List.map_cons]
    congr 1
    · have : rs.flatMap (fun r => slice file r.offset r.length) =
          (rs.zipIdx pre.length).flatMap fun x => slice file x.1.offset x.1.length := by
        have hz : rs = (rs.zipIdx pre.length).map Prod.fst := by simp
        rw [hz, List.flatMap_map]
        simp
      rw [this]
      apply flatMap_congr'
      rintro ⟨r, k⟩ hx
      rw [List.mem_zipIdx_iff_le_and_getElem?_sub] at hx
      obtain ⟨hx1, hx2⟩ := hx
      apply h
      rw [List.getElem?_append_right hx1, List.flatten_cons]
      have hlt := (List.getElem?_eq_some_iff.1 hx2).1
      rw [List.getElem?_append_left hlt]
      exact hx2
    · rw [← List.length_append]
      apply ih
      intro i r hi
      apply h
      rw [List.flatten_cons, ← List.append_assoc]
      exact hi

/-! ## The property -/

/-- C78: whatever the over-read policy, the gap, the chunk size and the order in which the chunks'
reads complete, and however the runs overlap, every buffer ends up with exactly the bytes of its runs,
in order. -/
theorem C78_buffers (within : Nat → Nat → Bool) (gap chunkBytes : Nat) (hc : 0 < chunkBytes)
    (order : List Chunk → List Chunk) (horder : ∀ l, (order l).Perm l) (file : Bytes)
    (shards : List (List Read))
    (hf : ∀ rs ∈ shards, ∀ r ∈ rs, r.dstLen = r.length ∧ r.offset + r.length ≤ file.length) :
    loadFile within gap chunkBytes order file shards =
      some (shards.map fun rs => rs.flatMap fun r => slice file r.offset r.length) := by
  have hall : ∀ r ∈ shards.flatten, r.dstLen = r.length ∧ r.offset + r.length ≤ file.length := by
    intro r hr
    obtain ⟨rs, h1, h2⟩ := List.mem_flatten.1 hr
    exact hf rs h1 r h2
  have hd : ∀ i, (readAt shards.flatten i).dstLen = (readAt shards.flatten i).length := by
    intro i
    cases h : shards.flatten[i]? with
    | none => simp [readAt, h]
    | some r => rw [readAt_of _ _ _ h]; exact (hall r (List.mem_of_getElem? h)).1
  have hg := plan_good within gap chunkBytes hc shards.flatten file.length (fun r hr => (hall r hr).2)
  obtain ⟨mem, h1, h2⟩ := execChunks_good file shards.flatten
    (order (planChunks within gap chunkBytes shards.flatten)) (by
      intro ch hch
      obtain ⟨e1, _, e3⟩ := hg ch ((horder _).mem_iff.1 hch)
      exact ⟨e1, fun w hw => ⟨e3 w hw, hd _⟩⟩) (fun _ _ => none)
  unfold loadFile
  rw [h1, Option.map_some]
  congr 1
  apply buffers_eq file mem shards []
  intro i r hi
  simp only [List.nil_append] at hi
  obtain ⟨e1, e2⟩ := hall r (List.mem_of_getElem? hi)
  apply view_eq file mem i r e1 e2
  intro j hj
  obtain ⟨ch, hch, hw⟩ := plan_cover within gap chunkBytes hc shards.flatten i r hi j hj
  have := h2 i j ⟨ch, (horder _).mem_iff.2 hch, hw⟩
  rw [readAt_of _ _ _ hi] at this
  exact this

/-- C78: loading shards of tensors that lie in the file gives, for every shard, a buffer of the shard's
size whose elements are, in row-major order, the elements of the tensor with the same indices. -/
theorem C78_shards (within : Nat → Nat → Bool) (gap chunkBytes : Nat) (hc : 0 < chunkBytes)
    (order : List Chunk → List Chunk) (horder : ∀ l, (order l).Perm l) (file : Bytes)
    (shards : List (Entry × Nat × List (Nat × Nat)))
    (hv : ∀ s ∈ shards, Valid s.2.2 s.1.shape ∧
      s.2.1 + s.1.beginOff + count s.1.shape * s.1.itemsize ≤ file.length) :
    ∃ buffers, loadFile within gap chunkBytes order file
        (shards.map fun s => shardReads s.1 s.2.1 s.2.2) = some buffers ∧
      buffers.length = shards.length ∧
      ∀ (k : Nat) (e : Entry) (dataStart : Nat) (bounds : List (Nat × Nat)) (buf : Bytes),
        shards[k]? = some (e, dataStart, bounds) → buffers[k]? = some buf →
        buf.length = count (width bounds) * e.itemsize ∧
        ∀ idx, InBox idx bounds →
          slice buf (flat (width bounds) (relative idx bounds) * e.itemsize) e.itemsize =
            slice file (dataStart + e.beginOff + flat e.shape idx * e.itemsize) e.itemsize := by
  refine ⟨_, C78_buffers within gap chunkBytes hc order horder file _ ?_, by simp, ?_⟩
  · intro rs hrs r hr
    obtain ⟨s, hs, rfl⟩ := List.mem_map.1 hrs
    obtain ⟨x, hx, rfl⟩ := List.mem_map.1 hr
    obtain ⟨h1, h2⟩ := hv s hs
    have := ((C77_runs_disjoint s.2.2 s.1.shape s.1.itemsize (s.2.1 + s.1.beginOff) h1).1 x hx).2
    exact ⟨rfl, by simp only; omega⟩
  · intro k e ds bounds buf hs hb
    simp only [List.map_map, List.getElem?_map, hs, Option.map_some, Option.some.injEq, Function.comp] at hb
    subst hb
    obtain ⟨h1, h2⟩ := hv _ (List.mem_of_getElem? hs)
    have := C77_runs_elements file bounds e.shape e.itemsize (ds + e.beginOff) h1 h2
    simp only [shardReads, List.flatMap_map]
    exact this

theorem chunksFrom_pairwise (reads : List Read) (blockEnd chunkBytes : Nat) (starts : List Nat) :
    ∀ members, starts.Pairwise (fun a b => a + chunkBytes ≤ b) →
      (chunksFrom reads blockEnd chunkBytes members starts).Pairwise
        fun a b => a.offset + a.length ≤ b.offset := by
  induction starts with
  | nil => intro _ _; simp [chunksFrom]
  | cons c0 starts ih =>
    intro members hs
    rw [List.pairwise_cons] at hs
    simp only [chunksFrom, List.pairwise_cons]
    refine ⟨?_, ih _ hs.2⟩
    intro ch hch
    have := hs.1 _ (chunksFrom_sound _ _ _ _ _ _ hch).1
    omega

theorem blocksFrom_pairwise (within : Nat → Nat → Bool) (gap : Nat) (rest : List (Nat × Read)) :
    ∀ (start stop needed : Nat) (members : List Nat),
      rest.Pairwise (fun a b => a.2.offset ≤ b.2.offset) → start ≤ stop →
      (∀ x ∈ rest, start ≤ x.2.offset) →
      (blocksFrom within gap start stop needed members rest).Pairwise (fun a b => a.stop ≤ b.start) ∧
      (∀ b ∈ blocksFrom within gap start stop needed members rest, start ≤ b.start ∧ b.start ≤ b.stop) ∧
      ∃ b bs, blocksFrom within gap start stop needed members rest = b :: bs ∧ stop ≤ b.stop := by
  induction rest with
  | nil => intro start stop needed members _ h _; simp [blocksFrom, h]
  | cons x rest ih =>
    intro start stop needed members hp hle hs
    obtain ⟨i, r⟩ := x
    rw [List.pairwise_cons] at hp
    have hsr := hs (i, r) (by simp)
    simp only at hsr
    simp only [blocksFrom]
    split
    · obtain ⟨h1, h2, b, bs, h3, h4⟩ := ih start (max stop (r.offset + r.length)) (needed + r.length)
        (members ++ [i]) hp.2 (by omega) (fun y hy => hs y (List.mem_cons_of_mem _ hy))
      exact ⟨h1, h2, b, bs, h3, by omega⟩
    · rename_i hn
      obtain ⟨h1, h2, _⟩ := ih r.offset (r.offset + r.length) r.length [i] hp.2 (by omega)
        (fun y hy => hp.1 y hy)
      refine ⟨?_, ?_, _, _, rfl, Nat.le_refl _⟩
      · rw [List.pairwise_cons]
        refine ⟨?_, h1⟩
        intro b hb
        have := (h2 b hb).1
        simp only
        have : ¬ r.offset ≤ stop + gap := fun h => hn (Or.inl h)
        omega
      · intro b hb
        rcases List.mem_cons.1 hb with rfl | hb
        · exact ⟨Nat.le_refl _, hle⟩
        · have := h2 b hb; omega

/-- C78: no byte of the file is read twice, however the runs overlap, and no single read exceeds the
chunk size. -/
theorem C78_read_once (within : Nat → Nat → Bool) (gap chunkBytes : Nat) (hc : 0 < chunkBytes)
    (reads : List Read) :
    (planChunks within gap chunkBytes reads).Pairwise (fun a b => a.offset + a.length ≤ b.offset) ∧
    ∀ ch ∈ planChunks within gap chunkBytes reads, ch.length ≤ chunkBytes := by
  constructor
  · unfold planChunks
    rw [List.pairwise_flatMap]
    constructor
    · intro b _
      exact chunksFrom_pairwise _ _ _ _ _ (stepRange_pairwise _ _ _)
    · have hp := sortedReads_pairwise reads
      have hb : (partitionRuns within gap reads).Pairwise (fun a b => a.stop ≤ b.start) := by
        unfold partitionRuns
        cases hs : sortedReads reads with
        | nil => simp
        | cons x rest =>
          obtain ⟨i, r⟩ := x
          rw [hs, List.pairwise_cons] at hp
          exact (blocksFrom_pairwise within gap rest r.offset (r.offset + r.length) r.length [i] hp.2
            (by omega) (fun y hy => hp.1 y hy)).1
      refine List.Pairwise.imp ?_ hb
      intro a b hab x hx y hy
      obtain ⟨h1, h2, _⟩ := chunksFrom_sound _ _ _ _ _ _ hx
      obtain ⟨h3, _, _⟩ := chunksFrom_sound _ _ _ _ _ _ hy
      have := stepRange_mem _ _ _ _ hc h1
      have := stepRange_mem _ _ _ _ hc h3
      omega
  · intro ch hch
    exact (plan_good within gap chunkBytes hc reads (reads.map (fun r => r.offset + r.length)).sum (by
      intro r hr
      exact le_sum_of_mem (List.mem_map.2 ⟨r, hr, rfl⟩)) ch hch).2.1

/-- The hypotheses are met by two shards of a 3 by 2 matrix of two-byte elements, read in chunks of three
bytes that complete in the opposite order. -/
theorem C78_nonvacuous :
    (∀ l : List Chunk, (l.reverse).Perm l) ∧
    (∀ s ∈ [((⟨[3, 2], 2, 0, 12⟩ : Entry), 9, [(0, 3), (0, 1)]), (⟨[3, 2], 2, 0, 12⟩, 9, [(0, 3), (1, 2)])],
      Valid s.2.2 s.1.shape ∧ s.2.1 + s.1.beginOff + count s.1.shape * s.1.itemsize ≤ 21) ∧
    InBox [2, 1] [(0, 3), (1, 2)] := by
  refine ⟨fun l => List.reverse_perm l, ?_, ?_⟩
  · intro s hs
    simp only [List.mem_cons, List.not_mem_nil, or_false] at hs
    rcases hs with rfl | rfl <;> simp [Valid, count]
  · simp [InBox]

end Verif.Safetensors
