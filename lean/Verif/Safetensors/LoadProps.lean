import Verif.Safetensors.PlanProps

/-!
# C79: a safetensors file is read as its header says, and a truncated one is refused
-/
namespace Verif.Safetensors

/-! ## Specification -/

/-- `n` as `k` little-endian bytes. -/
def toLE : Nat → Nat → Bytes
  | 0, _ => []
  | k + 1, n => n % 256 :: toLE k (n / 256)

/-- A safetensors file: the length of the header in eight bytes, the header, the data. -/
def fileOf (header data : Bytes) : Bytes := toLE 8 header.length ++ (header ++ data)

/-! ## Lemmas -/

theorem toLE_length (k n : Nat) : (toLE k n).length = k := by
  induction k generalizing n with
  | zero => rfl
  | succ k ih => simp [toLE, ih]

theorem fromLE_toLE (k n : Nat) (h : n < 256 ^ k) : fromLE (toLE k n) = n := by
  induction k generalizing n with
  | zero => simp at h; subst h; rfl
  | succ k ih =>
    have hlt : n / 256 < 256 ^ k := by
      rw [Nat.div_lt_iff_lt_mul (by decide), ← Nat.pow_succ]; exact h
    have := ih _ hlt
    simp only [toLE, fromLE, List.foldr_cons] at this ⊢
    rw [this]
    omega

theorem take_toLE (n : Nat) (y : Bytes) : (toLE 8 n ++ y).take 8 = toLE 8 n := by
  rw [List.take_append_of_le_length (by rw [toLE_length]; exact Nat.le_refl _)]
  exact List.take_of_length_le (by rw [toLE_length]; exact Nat.le_refl _)

theorem drop_toLE (n : Nat) (y : Bytes) : (toLE 8 n ++ y).drop 8 = y := by
  have : 8 = (toLE 8 n).length := (toLE_length 8 n).symm
  rw [List.drop_append, ← this, Nat.sub_self, List.drop_zero]
  rw [List.drop_of_length_le (by rw [toLE_length]; exact Nat.le_refl _)]
  rfl

theorem readHeader_toLE (parse : Bytes → Option Header) (n : Nat) (hn : n < 256 ^ 8) (y : Bytes) :
    readHeader parse (toLE 8 n ++ y) =
      if (y.take n).length ≠ n then none else (parse (y.take n)).map fun h => (h, 8 + n) := by
  unfold readHeader
  simp only [take_toLE, drop_toLE, fromLE_toLE 8 n hn]
  rw [if_neg (by
    intro h
    have := congrArg List.length h
    rw [toLE_length] at this
    exact absurd this (by decide))]

theorem readHeader_fileOf (parse : Bytes → Option Header) (header data : Bytes)
    (hn : header.length < 256 ^ 8) :
    readHeader parse (fileOf header data) = (parse header).map fun h => (h, 8 + header.length) := by
  unfold fileOf
  rw [readHeader_toLE parse _ hn]
  have : (header ++ data).take header.length = header := by
    rw [List.take_append_of_le_length (Nat.le_refl _), List.take_of_length_le (Nat.le_refl _)]
  rw [this, if_neg (by simp)]

theorem le_foldl_max (l : List Nat) : ∀ a, a ≤ l.foldl max a ∧ ∀ x ∈ l, x ≤ l.foldl max a := by
  induction l with
  | nil => intro a; simp
  | cons y l ih =>
    intro a
    obtain ⟨h1, h2⟩ := ih (max a y)
    rw [List.foldl_cons]
    refine ⟨by omega, ?_⟩
    intro x hx
    rcases List.mem_cons.1 hx with rfl | hx
    · omega
    · exact h2 x hx

theorem foldl_max_le (l : List Nat) (n : Nat) (h : ∀ x ∈ l, x ≤ n) : ∀ a, a ≤ n → l.foldl max a ≤ n := by
  induction l with
  | nil => intro a ha; exact ha
  | cons y l ih =>
    intro a ha
    rw [List.foldl_cons]
    apply ih (fun x hx => h x (List.mem_cons_of_mem _ hx))
    have := h y (by simp)
    omega

theorem longEnough_iff (file : Bytes) (h : Header) (ds : Nat) :
    longEnough file h ds = true ↔ ds ≤ file.length ∧ ∀ e ∈ h, ds + e.2.endOff ≤ file.length := by
  unfold longEnough
  rw [decide_eq_true_eq]
  obtain ⟨_, h2⟩ := le_foldl_max (h.map fun e => e.2.endOff) 0
  constructor
  · intro hl
    refine ⟨by omega, ?_⟩
    intro e he
    have := h2 _ (List.mem_map.2 ⟨e, he, rfl⟩)
    omega
  · rintro ⟨h3, h4⟩
    have := foldl_max_le (h.map fun e => e.2.endOff) (file.length - ds) (by
      intro x hx
      obtain ⟨e, he, rfl⟩ := List.mem_map.1 hx
      have := h4 e he
      omega) 0 (by omega)
    omega

theorem slice_fileOf (header data : Bytes) (b len : Nat) :
    slice (fileOf header data) (8 + header.length + b) len = slice data b len := by
  unfold fileOf
  have h8 : 8 = (toLE 8 header.length).length := (toLE_length 8 _).symm
  rw [Nat.add_assoc]
  conv => lhs; arg 2; rw [h8]
  rw [slice_append_right, slice_append_right]

theorem fileOf_length (header data : Bytes) : (fileOf header data).length = 8 + header.length + data.length := by
  simp [fileOf, toLE_length]; omega

theorem foldl_mul (l : List Nat) : ∀ a, l.foldl (· * ·) a = a * count l := by
  induction l with
  | nil => intro a; simp [count]
  | cons x l ih => intro a; rw [List.foldl_cons, ih, count, Nat.mul_assoc]

/-! ## The property -/

/-- C79: a file with a readable header, whose data reaches the end of every tensor, is opened: the
entries are those of the header and the data starts after it. -/
theorem C79_opens (parse : Bytes → Option Header) (header data : Bytes) (h : Header)
    (hn : header.length < 256 ^ 8) (hp : parse header = some h)
    (hd : ∀ e ∈ h, e.2.endOff ≤ data.length) :
    openFile parse (fileOf header data) = some (h, 8 + header.length) := by
  unfold openFile
  rw [readHeader_fileOf parse header data hn, hp, Option.map_some]
  simp only
  rw [if_pos]
  rw [longEnough_iff, fileOf_length]
  refine ⟨by omega, ?_⟩
  intro e he
  have := hd e he
  omega

/-- C79: a tensor loaded in full has exactly the bytes of the data section between its two offsets,
whatever the policy for coalescing, the chunk size and the order of completion. -/
theorem C79_whole (within : Nat → Nat → Bool) (gap chunkBytes : Nat) (hc : 0 < chunkBytes)
    (order : List Chunk → List Chunk) (horder : ∀ l, (order l).Perm l) (header data : Bytes)
    (entries : List Entry)
    (he : ∀ e ∈ entries, e.beginOff + count e.shape * e.itemsize = e.endOff ∧ e.endOff ≤ data.length) :
    loadFile within gap chunkBytes order (fileOf header data)
        (entries.map fun e => wholeReads e (8 + header.length)) =
      some (entries.map fun e => (data.drop e.beginOff).take (e.endOff - e.beginOff)) := by
  rw [C78_buffers within gap chunkBytes hc order horder]
  · congr 1
    rw [List.map_map]
    apply List.map_congr_left
    intro e _
    simp only [Function.comp, wholeReads, List.flatMap_cons, List.flatMap_nil, List.append_nil]
    rw [slice_fileOf]
    rfl
  · intro rs hrs r hr
    obtain ⟨e, hem, rfl⟩ := List.mem_map.1 hrs
    simp only [wholeReads, List.mem_singleton] at hr
    subst hr
    obtain ⟨h1, h2⟩ := he e hem
    rw [fileOf_length, foldl_mul, Nat.one_mul]
    simp only
    omega

/-- C79: a shard of a tensor has, in row-major order, the elements of the tensor with the shard's
indices, taken from the data section. -/
theorem C79_sharded (within : Nat → Nat → Bool) (gap chunkBytes : Nat) (hc : 0 < chunkBytes)
    (order : List Chunk → List Chunk) (horder : ∀ l, (order l).Perm l) (header data : Bytes)
    (shards : List (Entry × List (Nat × Nat)))
    (hv : ∀ s ∈ shards, Valid s.2 s.1.shape ∧
      s.1.beginOff + count s.1.shape * s.1.itemsize ≤ data.length) :
    ∃ buffers, loadFile within gap chunkBytes order (fileOf header data)
        (shards.map fun s => shardReads s.1 (8 + header.length) s.2) = some buffers ∧
      buffers.length = shards.length ∧
      ∀ (k : Nat) (e : Entry) (bounds : List (Nat × Nat)) (buf : Bytes),
        shards[k]? = some (e, bounds) → buffers[k]? = some buf →
        buf.length = count (width bounds) * e.itemsize ∧
        ∀ idx, InBox idx bounds →
          slice buf (flat (width bounds) (relative idx bounds) * e.itemsize) e.itemsize =
            slice data (e.beginOff + flat e.shape idx * e.itemsize) e.itemsize := by
  obtain ⟨bufs, h1, h2, h3⟩ := C78_shards within gap chunkBytes hc order horder (fileOf header data)
    (shards.map fun s => (s.1, 8 + header.length, s.2)) (by
      intro s hs
      obtain ⟨s, hs', rfl⟩ := List.mem_map.1 hs
      obtain ⟨e1, e2⟩ := hv s hs'
      refine ⟨e1, ?_⟩
      rw [fileOf_length]
      simp only
      omega)
  rw [List.map_map] at h1
  refine ⟨bufs, h1, by rw [h2, List.length_map], ?_⟩
  intro k e bounds buf hs hb
  obtain ⟨h4, h5⟩ := h3 k e (8 + header.length) bounds buf (by simp [hs]) hb
  refine ⟨h4, ?_⟩
  intro idx hi
  rw [h5 idx hi, Nat.add_assoc, slice_fileOf]

/-- C79: a file cut anywhere before the end of its last tensor is refused, be it in the length, in the
header or in the data. -/
theorem C79_truncated_refused (parse : Bytes → Option Header) (hempty : parse [] = none)
    (header data : Bytes) (h : Header) (hn : header.length < 256 ^ 8) (hp : parse header = some h)
    (k : Nat) (e : String × Entry) (he : e ∈ h) (hk : k < 8 + header.length + e.2.endOff)
    (hkl : k ≤ (fileOf header data).length) :
    openFile parse ((fileOf header data).take k) = none := by
  have hlen : ((fileOf header data).take k).length = k := by rw [List.length_take]; omega
  unfold openFile
  by_cases h8 : k < 8
  · have h1 : readHeader parse ((fileOf header data).take k) = none := by
      unfold readHeader
      simp only
      split
      · rfl
      · have hd : ((fileOf header data).take k).drop 8 = [] :=
          List.drop_of_length_le (by rw [hlen]; omega)
        rw [hd]
        split
        · rfl
        · rw [List.take_nil, hempty]; rfl
    rw [h1]
  · have hcut : (fileOf header data).take k = toLE 8 header.length ++ (header ++ data).take (k - 8) := by
      unfold fileOf
      rw [List.take_append, toLE_length,
        List.take_of_length_le (by rw [toLE_length]; omega : (toLE 8 header.length).length ≤ k)]
    by_cases hh : k < 8 + header.length
    · have h1 : readHeader parse ((fileOf header data).take k) = none := by
        rw [hcut, readHeader_toLE parse _ hn, if_pos]
        rw [List.length_take, List.length_take]
        omega
      rw [h1]
    · have h1 : readHeader parse ((fileOf header data).take k) = some (h, 8 + header.length) := by
        rw [hcut, readHeader_toLE parse _ hn, List.take_take]
        have : (header ++ data).take (min header.length (k - 8)) = header := by
          rw [Nat.min_eq_left (by omega), List.take_append_of_le_length (Nat.le_refl _),
            List.take_of_length_le (Nat.le_refl _)]
        rw [this, hp, if_neg (by simp)]
        rfl
      rw [h1]
      simp only
      rw [if_neg]
      intro hl
      have := (longEnough_iff _ _ _).1 hl
      rw [hlen] at this
      have := this.2 e he
      omega

/-! ### The index over several files -/

theorem buildIndex_spec (files : List (Header × Nat)) : ∀ (k : Nat)
    (acc idx : List (String × (Nat × Entry × Nat))), buildIndex k files acc = some idx →
    idx = acc ++ (files.zipIdx k).flatMap (fun f => f.1.1.map fun e => (e.1, (f.2, e.2, f.1.2))) ∧
    ∀ (j : Nat) (f : Header × Nat), files[j]? = some f → ∀ e ∈ f.1,
      (∀ a ∈ acc, a.1 ≠ e.1) ∧
      ∀ (i : Nat) (g : Header × Nat), i < j → files[i]? = some g → ∀ e' ∈ g.1, e'.1 ≠ e.1 := by
  induction files with
  | nil =>
    intro k acc idx h
    simp only [buildIndex, Option.some.injEq] at h
    subst h
    simp
  | cons f files ih =>
    intro k acc idx h
    obtain ⟨h0, ds⟩ := f
    simp only [buildIndex] at h
    split at h
    · cases h
    · rename_i hn
      have hn' : ∀ e ∈ h0, ∀ a ∈ acc, a.1 ≠ e.1 := by
        intro e he a ha hc
        apply hn
        exact List.any_eq_true.2 ⟨e, he, List.any_eq_true.2 ⟨a, ha, by simpa using hc⟩⟩
      obtain ⟨h1, h2⟩ := ih _ _ _ h
      constructor
      · rw [h1, List.zipIdx_cons, List.flatMap_cons, List.append_assoc]
      · intro j g hj e he
        cases j with
        | zero =>
          simp only [List.getElem?_cons_zero, Option.some.injEq] at hj
          subst hj
          exact ⟨hn' e he, fun i _ hi => by omega⟩
        | succ j =>
          simp only [List.getElem?_cons_succ] at hj
          obtain ⟨h3, h4⟩ := h2 j g hj e he
          refine ⟨fun a ha => h3 a (List.mem_append_left _ ha), ?_⟩
          intro i g' hi hg' e' he'
          cases i with
          | zero =>
            simp only [List.getElem?_cons_zero, Option.some.injEq] at hg'
            subst hg'
            exact h3 (e'.1, (k, e'.2, ds)) (List.mem_append_right _ (List.mem_map.2 ⟨e', he', rfl⟩))
          | succ i =>
            simp only [List.getElem?_cons_succ] at hg'
            exact h4 i g' (by omega) hg' e' he'

/-- C79: the index over several files lists every tensor of every file with its own file, entry and
data start, and nothing else; and no name is in two files. -/
theorem C79_index (files : List (Header × Nat)) (idx : List (String × (Nat × Entry × Nat)))
    (h : buildIndex 0 files [] = some idx) :
    (∀ (name : String) (k : Nat) (e : Entry) (ds : Nat), (name, (k, e, ds)) ∈ idx ↔
      ∃ hd, files[k]? = some (hd, ds) ∧ (name, e) ∈ hd) ∧
    (∀ (i j : Nat) (f g : Header × Nat), i < j → files[i]? = some f → files[j]? = some g →
      ∀ e ∈ f.1, ∀ e' ∈ g.1, e.1 ≠ e'.1) := by
  obtain ⟨h1, h2⟩ := buildIndex_spec files 0 [] idx h
  constructor
  · intro name k e ds
    rw [h1, List.nil_append, List.mem_flatMap]
    constructor
    · rintro ⟨⟨⟨hd, ds'⟩, k'⟩, hf, hm⟩
      obtain ⟨e', he', heq⟩ := List.mem_map.1 hm
      simp only [Prod.mk.injEq] at heq
      obtain ⟨rfl, rfl, rfl, rfl⟩ := heq
      exact ⟨hd, List.mem_zipIdx_iff_getElem?.1 hf, he'⟩
    · rintro ⟨hd, hf, hm⟩
      exact ⟨((hd, ds), k), List.mem_zipIdx_iff_getElem?.2 hf, List.mem_map.2 ⟨(name, e), hm, rfl⟩⟩
  · intro i j f g hij hf hg e he e' he'
    exact (h2 j g hg e' he').2 i f hij hf e he

/-- C79: files with distinct names are indexed. -/
theorem C79_index_total (files : List (Header × Nat))
    (h : ∀ (i j : Nat) (f g : Header × Nat), i < j → files[i]? = some f → files[j]? = some g →
      ∀ e ∈ f.1, ∀ e' ∈ g.1, e.1 ≠ e'.1) : ∃ idx, buildIndex 0 files [] = some idx := by
  suffices hs : ∀ (fs : List (Header × Nat)) (k : Nat) (acc : List (String × (Nat × Entry × Nat))),
      (∀ (i j : Nat) (f g : Header × Nat), i < j → fs[i]? = some f → fs[j]? = some g →
        ∀ e ∈ f.1, ∀ e' ∈ g.1, e.1 ≠ e'.1) →
      (∀ f ∈ fs, ∀ e ∈ f.1, ∀ a ∈ acc, a.1 ≠ e.1) → ∃ idx, buildIndex k fs acc = some idx from
    hs files 0 [] h (by simp)
  intro fs
  induction fs with
  | nil => intro k acc _ _; exact ⟨acc, rfl⟩
  | cons f fs ih =>
    intro k acc h1 h2
    obtain ⟨h0, ds⟩ := f
    simp only [buildIndex]
    rw [if_neg (by
      intro hc
      obtain ⟨e, he, hc⟩ := List.any_eq_true.1 hc
      obtain ⟨a, ha, hc⟩ := List.any_eq_true.1 hc
      exact h2 (h0, ds) (by simp) e he a ha (by simpa using hc))]
    apply ih
    · intro i j f g hij hf hg
      exact h1 (i + 1) (j + 1) f g (by omega) (by simpa using hf) (by simpa using hg)
    · intro f hf e he a ha
      rcases List.mem_append.1 ha with ha | ha
      · exact h2 f (List.mem_cons_of_mem _ hf) e he a ha
      · obtain ⟨e', he', rfl⟩ := List.mem_map.1 ha
        obtain ⟨j, hj⟩ := List.mem_iff_getElem?.1 hf
        exact h1 0 (j + 1) (h0, ds) f (by omega) rfl (by simpa using hj) e' he' e he

/-! ### What goes wrong -/

/-- C79 (finding): the header's offsets are not compared with the shape. A tensor whose offsets span
fewer bytes than its shape is opened and loaded in full without error, and every byte past the end
offset is uninitialised memory (here 0), not the bytes in the file. -/
theorem C79_short_span_fails (parse : Bytes → Option Header) (header data : Bytes) (name : String)
    (n : Nat) (hn : header.length < 256 ^ 8) (h2 : 2 ≤ n)
    (hp : parse header = some [(name, ⟨[n], 1, 0, 1⟩)]) (hd : 1 ≤ data.length) :
    openFile parse (fileOf header data) = some ([(name, ⟨[n], 1, 0, 1⟩)], 8 + header.length) ∧
    loadFile (fun _ _ => true) 4096 100 id (fileOf header data)
      [wholeReads ⟨[n], 1, 0, 1⟩ (8 + header.length)] =
        some [data.take 1 ++ List.replicate (n - 1) 0] := by
  constructor
  · exact C79_opens parse header data _ hn hp (by simpa using hd)
  · have hplan : planChunks (fun _ _ => true) 4096 100
        [wholeReads ⟨[n], 1, 0, 1⟩ (8 + header.length)].flatten =
        [⟨8 + header.length, 1, [⟨0, 0, 1, 0, 1⟩]⟩] := by
      have hs : sortedReads [wholeReads ⟨[n], 1, 0, 1⟩ (8 + header.length)].flatten =
          [(0, ⟨8 + header.length, 1, n⟩)] := by
        simp [sortedReads, wholeReads]
      simp only [planChunks, partitionRuns, hs, blocksFrom, List.flatMap_cons, List.flatMap_nil,
        List.append_nil]
      have hst : stepRange (8 + header.length) (8 + header.length + 1) 100 = [8 + header.length] := by
        unfold stepRange
        have : (8 + header.length + 1 - (8 + header.length) + 100 - 1) / 100 = 1 := by
          have : 8 + header.length + 1 - (8 + header.length) + 100 - 1 = 100 := by omega
          rw [this]
        rw [this]
        simp
      have hr : readAt [wholeReads ⟨[n], 1, 0, 1⟩ (8 + header.length)].flatten 0 =
          ⟨8 + header.length, 1, n⟩ := by simp [readAt, wholeReads]
      rw [hst]
      have hmin : min (8 + header.length + 100) (8 + header.length + 1) = 8 + header.length + 1 := by omega
      simp only [chunksFrom, hmin, List.dropWhile_cons, hr]
      rw [if_neg (by simp)]
      simp only [List.takeWhile_cons, hr]
      rw [if_pos (by simp)]
      simp only [List.takeWhile_nil, List.filterMap_cons, List.filterMap_nil, writeOf, hr, Nat.max_self,
        Nat.min_self, Nat.sub_self]
      rw [if_pos (by omega)]
      have : 8 + header.length + 1 - (8 + header.length) = 1 := by omega
      simp only [this]
    obtain ⟨b, data', rfl⟩ : ∃ b data', data = b :: data' := by
      cases data with
      | nil => simp at hd
      | cons b d => exact ⟨b, d, rfl⟩
    have hsl : slice (fileOf header (b :: data')) (8 + header.length) 1 = [b] := by
      have := slice_fileOf header (b :: data') 0 1
      rw [Nat.add_zero] at this
      rw [this]
      rfl
    have hr : readAt [wholeReads ⟨[n], 1, 0, 1⟩ (8 + header.length)].flatten 0 =
        ⟨8 + header.length, 1, n⟩ := by simp [readAt, wholeReads]
    unfold loadFile
    rw [hplan]
    simp only [id, execChunks, execWrites, execWrite, hsl, hr]
    have hm : min 1 n = 1 := by omega
    simp only [hm, Nat.zero_min, slice, List.drop_zero, Nat.sub_zero, List.take_succ_cons,
      List.take_zero, List.length_singleton, true_or, if_true, Option.map_some, buffersFrom]
    congr 2
    simp only [wholeReads, List.zipIdx_cons, List.zipIdx_nil, List.flatMap_cons, List.flatMap_nil,
      List.append_nil, viewOf, List.foldl_cons, List.foldl_nil, Nat.one_mul, Nat.mul_one]
    apply List.ext_getElem?
    intro k
    rw [List.getElem?_map]
    cases k with
    | zero => rw [List.getElem?_range (by omega)]; simp
    | succ k =>
      simp only [List.cons_append, List.nil_append, List.getElem?_cons_succ]
      by_cases hk : k + 1 < n
      · rw [List.getElem?_range hk, List.getElem?_replicate, if_pos (by omega)]
        simp
      · rw [List.getElem?_eq_none (by simp; omega), List.getElem?_eq_none (by simp; omega)]
        rfl

/-- The plan of one read that fits in one request. -/
theorem plan_single (within : Nat → Nat → Bool) (gap chunkBytes a s n : Nat) (h1 : 1 ≤ s)
    (hc : s ≤ chunkBytes) :
    planChunks within gap chunkBytes [⟨a, s, n⟩] = [⟨a, s, [⟨0, 0, s, 0, s⟩]⟩] := by
  have hr : readAt [⟨a, s, n⟩] 0 = ⟨a, s, n⟩ := by simp [readAt]
  have hs : sortedReads [⟨a, s, n⟩] = [(0, ⟨a, s, n⟩)] := by simp [sortedReads]
  simp only [planChunks, partitionRuns, hs, blocksFrom, List.flatMap_cons, List.flatMap_nil,
    List.append_nil]
  have hst : stepRange a (a + s) chunkBytes = [a] := by
    unfold stepRange
    have : (a + s - a + chunkBytes - 1) / chunkBytes = 1 := by
      have h1 : a + s - a + chunkBytes - 1 = (s - 1) + chunkBytes := by omega
      rw [h1, Nat.add_div_right _ (by omega), Nat.div_eq_of_lt (by omega)]
    rw [this]
    simp
  rw [hst]
  have hmin : min (a + chunkBytes) (a + s) = a + s := by omega
  simp only [chunksFrom, hmin, List.dropWhile_cons, hr]
  rw [if_neg (by simp; omega)]
  simp only [List.takeWhile_cons, hr]
  rw [if_pos (by simp; omega)]
  simp only [List.takeWhile_nil, List.filterMap_cons, List.filterMap_nil, writeOf, hr, Nat.max_self,
    Nat.min_self, Nat.sub_self]
  rw [if_pos (by omega)]
  have : a + s - a = s := by omega
  simp only [this]

/-- C79: a tensor whose span in the file is longer than its shape says is refused, if it is read in one
request and the span is not a single byte. -/
theorem C79_long_span (within : Nat → Nat → Bool) (gap chunkBytes : Nat) (file : Bytes) (e : Entry)
    (start : Nat) (h2 : 2 ≤ e.endOff - e.beginOff) (hc : e.endOff - e.beginOff ≤ chunkBytes)
    (hfile : start + e.endOff ≤ file.length)
    (hlt : e.shape.foldl (· * ·) 1 * e.itemsize < e.endOff - e.beginOff) :
    loadFile within gap chunkBytes id file [wholeReads e start] = none := by
  obtain ⟨a, ha⟩ : ∃ a, a = start + e.beginOff := ⟨_, rfl⟩
  obtain ⟨s, hs'⟩ : ∃ s, s = e.endOff - e.beginOff := ⟨_, rfl⟩
  obtain ⟨n, hn'⟩ : ∃ n, n = e.shape.foldl (· * ·) 1 * e.itemsize := ⟨_, rfl⟩
  have hw : [wholeReads e start].flatten = [⟨a, s, n⟩] := by simp [wholeReads, ha, hs', hn']
  rw [← hs'] at h2 hc hlt
  rw [← hn'] at hlt
  have hr : readAt [⟨a, s, n⟩] 0 = ⟨a, s, n⟩ := by simp [readAt]
  have hlen : (slice (slice file a s) 0 s).length = s := by
    simp only [slice, List.length_take, List.length_drop]
    omega
  simp only [loadFile, hw, plan_single within gap chunkBytes a s n (by omega) hc, id, execChunks,
    execWrites, execWrite, hr, Nat.sub_zero, hlen]
  rw [if_neg (by omega)]
  rfl

/-- C79 (finding): a tensor whose span in the file is shorter than its shape says is not refused, whatever
the length of the span: the end of its buffer is uninitialised memory (here 0). -/
theorem C79_any_short_span_fails (within : Nat → Nat → Bool) (gap chunkBytes : Nat) (file : Bytes)
    (e : Entry) (start : Nat) (h2 : 2 ≤ e.endOff - e.beginOff)
    (hc : e.endOff - e.beginOff ≤ chunkBytes) (hfile : start + e.endOff ≤ file.length)
    (hlt : e.endOff - e.beginOff < e.shape.foldl (· * ·) 1 * e.itemsize) :
    loadFile within gap chunkBytes id file [wholeReads e start] =
      some [slice file (start + e.beginOff) (e.endOff - e.beginOff) ++
        List.replicate (e.shape.foldl (· * ·) 1 * e.itemsize - (e.endOff - e.beginOff)) 0] := by
  obtain ⟨a, ha⟩ : ∃ a, a = start + e.beginOff := ⟨_, rfl⟩
  obtain ⟨s, hs'⟩ : ∃ s, s = e.endOff - e.beginOff := ⟨_, rfl⟩
  obtain ⟨n, hn'⟩ : ∃ n, n = e.shape.foldl (· * ·) 1 * e.itemsize := ⟨_, rfl⟩
  have hw0 : wholeReads e start = [⟨a, s, n⟩] := by simp [wholeReads, ha, hs', hn']
  have hw : [[(⟨a, s, n⟩ : Read)]].flatten = [⟨a, s, n⟩] := by simp
  rw [← hs'] at h2 hc hlt ⊢
  rw [← hn'] at hlt ⊢
  rw [← ha]
  have hr : readAt [⟨a, s, n⟩] 0 = ⟨a, s, n⟩ := by simp [readAt]
  have hsl : slice (slice file a s) 0 s = slice file a s := by
    simp [slice, List.take_take]
  have hlen : (slice file a s).length = s := by
    simp only [slice, List.length_take, List.length_drop]
    omega
  have hm : min s n = s := by omega
  simp only [loadFile, hw0, hw, plan_single within gap chunkBytes a s n (by omega) hc, id, execChunks,
    execWrites, execWrite, hr, Nat.sub_zero, hsl, hlen, hm, Nat.zero_min, true_or, if_true,
    Option.map_some, buffersFrom]
  congr 2
  simp only [List.zipIdx_cons, List.zipIdx_nil, List.flatMap_cons, List.flatMap_nil, List.append_nil,
    viewOf]
  apply List.ext_getElem?
  intro k
  rw [List.getElem?_map]
  by_cases hk : k < n
  · rw [List.getElem?_range hk]
    by_cases hks : k < s
    · have hg : (slice file a s)[k]? = some ((slice file a s)[k]'(by omega)) :=
        List.getElem?_eq_getElem (by omega)
      rw [List.getElem?_append_left (by omega), hg]
      simp [hks, hg]
    · rw [List.getElem?_append_right (by omega), List.getElem?_replicate, if_pos (by omega)]
      simp [hks]
  · rw [List.getElem?_eq_none (by simp; omega), List.getElem?_eq_none (by simp; omega)]
    rfl

theorem C79_nonvacuous :
    ∃ (parse : Bytes → Option Header) (header data : Bytes) (h : Header) (e : String × Entry),
      parse [] = none ∧ header.length < 256 ^ 8 ∧ parse header = some h ∧ e ∈ h ∧
      (∀ e ∈ h, e.2.endOff ≤ data.length ∧ e.2.beginOff + count e.2.shape * e.2.itemsize = e.2.endOff) ∧
      Valid [(1, 2), (0, 2)] e.2.shape ∧ InBox [1, 1] [(1, 2), (0, 2)] ∧
      ∃ idx, buildIndex 0 [(h, 9), ([("w", e.2)], 9)] [] = some idx := by
  refine ⟨fun b => if b = [] then none else some [("t", ⟨[3, 2], 2, 0, 12⟩)], [123],
    List.range 12, [("t", ⟨[3, 2], 2, 0, 12⟩)], ("t", ⟨[3, 2], 2, 0, 12⟩), rfl, by decide, rfl, by decide,
    by decide, ?_, ?_, ?_⟩
  · simp [Valid]
  · simp [InBox]
  · exact ⟨_, rfl⟩

end Verif.Safetensors
