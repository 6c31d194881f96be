import Verif.Emergency.ChunkDebug
import Verif.Handlers.PlacesProps

/-! # C138: the report of present and missing chunks -/

namespace Verif.Emergency.ChunkDebug
open Verif.Handlers.Places (splitOn joinWith hasSub splitOn_joinWith splitOn_none hasSub_none)

/-! ### Specification -/

/-- The element at the position is in the part of the array that the index selects. -/
def Within : List Slice → List Nat → List Nat → Prop
  | sl :: idx, g :: G, p :: ps => sl.start.getD 0 ≤ p ∧ p < sl.stop.getD g ∧ Within idx G ps
  | [], [], [] => True
  | _, _, _ => False

/-- The index selects one cell of the grid of cells of shape `S`. -/
def Aligned : List Slice → List Nat → List Nat → Prop
  | sl :: idx, g :: G, s :: S =>
    (sl.step = none ∨ sl.step = some 1) ∧ 0 < s ∧ (∃ k, sl.start.getD 0 = k * s ∧ sl.stop.getD g = (k + 1) * s) ∧ Aligned idx G S
  | [], [], [] => True
  | _, _, _ => False

/-- The element at the position is in the chunk of that number, of the grid of cells of shape `S`. -/
def InChunk : List Nat → List Nat → List Nat → Prop
  | i :: id, s :: S, p :: ps => i * s ≤ p ∧ p < (i + 1) * s ∧ InChunk id S ps
  | [], [], [] => True
  | _, _, _ => False

/-- What is in storage for an array: the metadata, and chunks. -/
inductive Entry
  | info
  | chunk (id : List Nat)

/-- The keys that Zarr gives them: `zarr.json` and `c/0/1`, or `.zarray` and `0.1`; the one chunk of a scalar is `c` or `0`. -/
def keyOf (zarr3 : Bool) : Entry → Str
  | .info => if zarr3 then "zarr.json".toList else ".zarray".toList
  | .chunk id =>
    if zarr3 then joinWith '/' (['c'] :: id.map fun n => n.repr.toList)
    else if id = [] then ['0'] else joinWith '.' (id.map fun n => n.repr.toList)

/-- The chunks in storage. -/
def chunksOf (L : List Entry) : List (List Nat) := L.filterMap fun | .info => none | .chunk id => some id

/-! ### Indices and numbers of chunks -/

theorem dimId_ok (g s i : Nat) (sl : Slice) (hs : 0 < s) :
    dimId g s sl = .ok i ↔ (sl.step = none ∨ sl.step = some 1) ∧ sl.start.getD 0 = i * s ∧ sl.stop.getD g = (i + 1) * s := by
  simp only [dimId]
  constructor
  · intro h
    split at h
    · cases h
    · rename_i h1
      split at h
      · cases h
      · rename_i h2
        split at h
        · cases h
        · rename_i h3
          simp only [Except.ok.injEq] at h
          have h1' : sl.step = none ∨ sl.step = some 1 := by
            cases hst : sl.step with
            | none => exact .inl rfl
            | some k =>
              right
              by_cases hk : k = 1
              · rw [hk]
              · exact absurd (by simp [hst, hk]) h1
          have h2' : sl.start.getD 0 % s = 0 := by
            by_cases hh : sl.start.getD 0 % s = 0
            · exact hh
            · exact absurd (fun h => hh h.1) h2
          have h3' : sl.stop.getD g = sl.start.getD 0 + s := by
            by_cases hh : sl.stop.getD g = sl.start.getD 0 + s
            · exact hh
            · exact absurd hh h3
          have h4 : sl.start.getD 0 = i * s := by
            have := Nat.div_add_mod (sl.start.getD 0) s
            rw [h2', h, Nat.add_zero, Nat.mul_comm] at this
            exact this.symm
          exact ⟨h1', h4, by rw [h3', h4, Nat.add_mul, Nat.one_mul]⟩
  · rintro ⟨h1, h2, h3⟩
    have h1' : ¬ ¬ (sl.step = some 1 ∨ sl.step = none) := by rcases h1 with h | h <;> simp [h]
    rw [if_neg h1', h2, h3, if_neg (by simp), if_neg (by rw [Nat.add_mul, Nat.one_mul]; simp), Nat.mul_div_cancel _ hs]

/-- The numbers of an index, dimension by dimension. -/
def Numbered : List Slice → List Nat → List Nat → List Nat → Prop
  | sl :: idx, g :: G, s :: S, i :: id =>
    (sl.step = none ∨ sl.step = some 1) ∧ 0 < s ∧ sl.start.getD 0 = i * s ∧ sl.stop.getD g = (i + 1) * s ∧ Numbered idx G S id
  | [], [], [], [] => True
  | _, _, _, _ => False

theorem numbered_iff : ∀ (idx : List Slice) (G S id : List Nat), indexToChunkId idx G S = .ok id ↔ Numbered idx G S id := by
  have main : ∀ (idx : List Slice) (G S id : List Nat), idx.length = G.length → G.length = S.length → (∀ s ∈ S, 0 < s) →
      (dims idx G S = .ok id ↔ Numbered idx G S id) := by
    intro idx
    induction idx with
    | nil =>
      intro G S id h1 h2 _
      cases G with
      | nil => cases S with
        | nil => cases id <;> simp [dims, Numbered]
        | cons => simp at h2
      | cons => simp at h1
    | cons sl idx ih =>
      intro G S id h1 h2 h3
      cases G with
      | nil => simp at h1
      | cons g G => cases S with
        | nil => simp at h2
        | cons s S =>
          have hs := h3 s (by simp)
          have ih := fun id => ih G S id (by simpa using h1) (by simpa using h2) (fun x hx => h3 x (by simp [hx]))
          cases id with
          | nil =>
            simp only [dims, Numbered, iff_false]
            cases dimId g s sl with
            | error e => simp
            | ok i => cases dims idx G S <;> simp
          | cons i id =>
            simp only [Numbered, dims]
            constructor
            · intro h
              cases hd : dimId g s sl with
              | error e => rw [hd] at h; cases h
              | ok j =>
                rw [hd] at h
                simp only at h
                cases hr : dims idx G S with
                | error e => rw [hr] at h; cases h
                | ok r =>
                  rw [hr] at h
                  simp only [Except.ok.injEq, List.cons.injEq] at h
                  obtain ⟨rfl, rfl⟩ := h
                  have := (dimId_ok g s j sl hs).1 hd
                  exact ⟨this.1, hs, this.2.1, this.2.2, (ih r).1 hr⟩
            · rintro ⟨a, _, b, c, d⟩
              rw [(dimId_ok g s i sl hs).2 ⟨a, b, c⟩, (ih id).2 d]
  intro idx G S id
  have back : ∀ (idx : List Slice) (G S id : List Nat), Numbered idx G S id →
      idx.length = G.length ∧ G.length = S.length ∧ ∀ s ∈ S, 0 < s := by
    intro idx
    induction idx with
    | nil =>
      intro G S id h
      cases G <;> cases S <;> cases id <;> simp [Numbered] at h ⊢
    | cons sl idx ih =>
      intro G S id h
      cases G <;> cases S <;> cases id <;> simp only [Numbered] at h
      rename_i g G s S i id
      obtain ⟨h1, h2, h3⟩ := ih G S id h.2.2.2.2
      refine ⟨by simp [h1], by simp [h2], ?_⟩
      intro x hx
      rcases List.mem_cons.1 hx with rfl | hx
      · exact h.2.1
      · exact h3 x hx
  simp only [indexToChunkId]
  by_cases hl : idx.length = G.length ∧ G.length = S.length
  · rw [if_neg (by simpa using hl)]
    by_cases hz : (S.any fun s => s == 0) = true
    · rw [if_pos hz]
      simp only [reduceCtorEq, false_iff]
      intro h
      obtain ⟨x, hx, h0⟩ := List.any_eq_true.1 hz
      have := (back idx G S id h).2.2 x hx
      simp only [beq_iff_eq] at h0
      omega
    · rw [if_neg hz]
      refine main idx G S id hl.1 hl.2 (fun s hs => ?_)
      apply Nat.pos_of_ne_zero
      intro h0
      exact hz (List.any_eq_true.2 ⟨s, hs, by simp [h0]⟩)
  · rw [if_pos hl]
    simp only [reduceCtorEq, false_iff]
    intro h
    exact hl ⟨(back idx G S id h).1, (back idx G S id h).2.1⟩

/-- C138: an index gets a chunk number exactly if it selects one cell of the grid of shards; otherwise there is an exception. -/
theorem C138_accepts (idx : List Slice) (G S : List Nat) : (∃ id, indexToChunkId idx G S = .ok id) ↔ Aligned idx G S := by
  simp only [numbered_iff]
  induction idx generalizing G S with
  | nil =>
    cases G <;> cases S <;> simp only [Aligned, iff_true, iff_false]
    · exact ⟨[], trivial⟩
    all_goals rintro ⟨id, h⟩; cases id <;> exact h
  | cons sl idx ih =>
    cases G <;> cases S <;> simp only [Aligned, iff_false]
    case cons.cons g G s S =>
      rw [← ih]
      constructor
      · rintro ⟨id, h⟩
        cases id with
        | nil => exact h.elim
        | cons i id => exact ⟨h.1, h.2.1, ⟨i, h.2.2.1, h.2.2.2.1⟩, id, h.2.2.2.2⟩
      · rintro ⟨h1, h2, ⟨i, h3, h4⟩, id, h5⟩
        exact ⟨i :: id, h1, h2, h3, h4, h5⟩
    all_goals rintro ⟨id, h⟩; cases id <;> exact h

theorem within_numbered : ∀ (idx : List Slice) (G S id : List Nat), Numbered idx G S id → ∀ p, Within idx G p ↔ InChunk id S p := by
  intro idx
  induction idx with
  | nil =>
    intro G S id h p
    cases G <;> cases S <;> cases id <;> simp only [Numbered] at h
    cases p <;> simp [Within, InChunk]
  | cons sl idx ih =>
    intro G S id h p
    cases G <;> cases S <;> cases id <;> simp only [Numbered] at h
    cases p with
    | nil => simp [Within, InChunk]
    | cons x p => simp only [Within, InChunk, h.2.2.1, h.2.2.2.1, ih _ _ _ h.2.2.2.2 p]

/-- C138: the elements an index selects are those of the chunk of its number, and the index made from the number selects them again. -/
theorem C138_same_elements (idx : List Slice) (G S id : List Nat) (h : indexToChunkId idx G S = .ok id) :
    (∀ p, Within idx G p ↔ InChunk id S p) ∧
    ∃ idx', chunkIdToIndex id S = .ok idx' ∧ ∀ p, Within idx' G p ↔ Within idx G p := by
  have hn := (numbered_iff idx G S id).1 h
  refine ⟨within_numbered idx G S id hn, ?_⟩
  clear h
  induction idx generalizing G S id with
  | nil =>
    cases G <;> cases S <;> cases id <;> simp only [Numbered] at hn
    exact ⟨[], rfl, fun p => Iff.rfl⟩
  | cons sl idx ih =>
    cases G <;> cases S <;> cases id <;> simp only [Numbered] at hn
    rename_i g G s S i id
    obtain ⟨idx', h1, h2⟩ := ih G S id hn.2.2.2.2
    simp only [chunkIdToIndex] at h1 ⊢
    split at h1
    · cases h1
    · rename_i hl
      simp only [Except.ok.injEq] at h1
      refine ⟨_, if_neg (by simpa using hl), fun p => ?_⟩
      cases p with
      | nil => simp [Within]
      | cons x p =>
        simp only [List.zipWith_cons_cons, Within, Option.getD_some, hn.2.2.1, hn.2.2.2.1, h1, h2, Nat.add_mul, Nat.one_mul]

/-- C138: a chunk number comes back from the index made from it. -/
theorem C138_inverse (id G S : List Nat) (h1 : id.length = S.length) (h2 : G.length = S.length) (h3 : ∀ s ∈ S, 0 < s) :
    ∃ idx, chunkIdToIndex id S = .ok idx ∧ indexToChunkId idx G S = .ok id := by
  refine ⟨_, if_neg (by simpa using h1), ?_⟩
  rw [numbered_iff]
  induction id generalizing G S with
  | nil => cases S <;> cases G <;> simp at h1 h2 <;> trivial
  | cons i id ih =>
    cases S with
    | nil => simp at h1
    | cons s S => cases G with
      | nil => simp at h2
      | cons g G =>
        simp only [List.zipWith_cons_cons, Numbered, true_or, true_and, Option.getD_some]
        exact ⟨h3 s (by simp), by rw [Nat.add_mul, Nat.one_mul], ih G S (by simpa using h1) (by simpa using h2) fun x hx => h3 x (by simp [hx])⟩

/-- C138: a chunk number of another number of dimensions than the shards is refused. -/
theorem C138_number_refused (id S : List Nat) : (∃ idx, chunkIdToIndex id S = .ok idx) ↔ id.length = S.length := by
  simp only [chunkIdToIndex]
  by_cases h : id.length = S.length <;> simp [h]

theorem inChunk_unique : ∀ (i id S p : List Nat), InChunk i S p → InChunk id S p → i = id := by
  intro i
  induction i with
  | nil =>
    intro id S p h1 h2
    cases S <;> cases p <;> simp only [InChunk] at h1
    cases id with
    | nil => rfl
    | cons => exact h2.elim
  | cons a i ih =>
    intro id S p h1 h2
    cases S <;> cases p <;> simp only [InChunk] at h1
    rename_i s S x p
    cases id with
    | nil => exact h2.elim
    | cons b id =>
      simp only [InChunk] at h2
      have e : a = b := by
        have a1 : a < b + 1 := Nat.lt_of_mul_lt_mul_right (Nat.lt_of_le_of_lt h1.1 h2.2.1)
        have a2 : b < a + 1 := Nat.lt_of_mul_lt_mul_right (Nat.lt_of_le_of_lt h2.1 h1.2.1)
        omega
      rw [e, ih id S p h1.2.2 h2.2.2]

/-- C138: two indices have the same chunk number exactly if they have an element in common. -/
theorem C138_disjoint (idx idx' : List Slice) (G S id id' : List Nat) (h : indexToChunkId idx G S = .ok id)
    (h' : indexToChunkId idx' G S = .ok id') : id = id' ↔ ∃ p, Within idx G p ∧ Within idx' G p := by
  have hn := (numbered_iff idx G S id).1 h
  have hn' := (numbered_iff idx' G S id').1 h'
  simp only [within_numbered idx G S id hn, within_numbered idx' G S id' hn']
  clear h h'
  constructor
  · rintro rfl
    have : ∃ p, InChunk id S p := by
      clear hn'
      induction idx generalizing G S id with
      | nil =>
        cases G <;> cases S <;> cases id <;> simp only [Numbered] at hn
        exact ⟨[], trivial⟩
      | cons sl idx ih =>
        cases G <;> cases S <;> cases id <;> simp only [Numbered] at hn
        rename_i g G s S i id
        obtain ⟨p, hp⟩ := ih G S id hn.2.2.2.2
        exact ⟨i * s :: p, Nat.le_refl _, by rw [Nat.add_mul, Nat.one_mul]; exact Nat.lt_add_of_pos_right hn.2.1, hp⟩
    obtain ⟨p, hp⟩ := this
    exact ⟨p, hp, hp⟩
  · rintro ⟨p, hp, hp'⟩
    exact inChunk_unique id id' S p hp hp'

/-! ### Keys -/

theorem repr_digits (n : Nat) : n.repr.toList ≠ [] ∧ ∀ c ∈ n.repr.toList, c.isDigit = true := by
  rw [Nat.toList_repr]
  refine ⟨?_, fun c h => Nat.isDigit_of_mem_toDigits (by omega) (by omega) h⟩
  intro e
  have := @Nat.length_toDigits_pos 10 n
  rw [e] at this
  simp at this

theorem parseInt_repr (n : Nat) : parseInt n.repr.toList = .ok n := by
  have h := repr_digits n
  simp only [parseInt]
  rw [if_neg]
  · rw [Nat.toList_repr, Nat.ofDigitChars_toDigits (by omega) (by omega)]
  · rintro (h1 | h1)
    · exact h.1 h1
    · exact h1 (List.all_eq_true.2 h.2)

theorem parseAll_repr (id : List Nat) : parseAll (id.map fun n => n.repr.toList) = .ok id := by
  induction id with
  | nil => rfl
  | cons n id ih => simp only [List.map_cons, parseAll, parseInt_repr, ih]

theorem mem_joinWith (c x : Char) : ∀ l : List Str, x ∈ joinWith c l → x = c ∨ ∃ a ∈ l, x ∈ a
  | [], h => by simp [joinWith] at h
  | [a], h => .inr ⟨a, by simp, h⟩
  | a :: b :: l, h => by
    simp only [joinWith, List.mem_append, List.mem_cons] at h
    rcases h with h | h | h
    · exact .inr ⟨a, by simp, h⟩
    · exact .inl h
    · rcases mem_joinWith c x (b :: l) h with h | ⟨y, hy, h⟩
      · exact .inl h
      · exact .inr ⟨y, by simp [List.mem_cons.1 hy], h⟩

theorem filter_repr (id : List Nat) :
    (id.map fun n => n.repr.toList).filter (fun x => decide (x ≠ ['c'])) = id.map fun n => n.repr.toList := by
  rw [List.filter_eq_self]
  intro x hx
  obtain ⟨n, -, rfl⟩ := List.mem_map.1 hx
  simp only [decide_eq_true_eq]
  intro e
  have := (repr_digits n).2 'c' (by rw [e]; simp)
  exact absurd this (by decide)

theorem parseKey_keyOf (zarr3 : Bool) (id : List Nat) (h : zarr3 = true ∨ id ≠ []) :
    hasSub "zarr".toList (keyOf zarr3 (.chunk id)) = false ∧ parseKey zarr3 (keyOf zarr3 (.chunk id)) = .ok id := by
  have nodigit : ∀ c : Char, c.isDigit = false → ∀ n : Nat, c ∉ n.repr.toList := by
    intro c hc n hm
    rw [(repr_digits n).2 c hm] at hc
    cases hc
  cases zarr3 with
  | true =>
    simp only [keyOf, if_true, parseKey]
    constructor
    · apply hasSub_none _ _ 'z' (by decide)
      intro hz
      rcases mem_joinWith _ _ _ hz with h1 | ⟨a, ha, h1⟩
      · exact absurd h1 (by decide)
      · rcases List.mem_cons.1 ha with rfl | ha
        · exact absurd h1 (by decide)
        · obtain ⟨n, -, rfl⟩ := List.mem_map.1 ha
          exact nodigit 'z' (by decide) n h1
    · rw [splitOn_joinWith '/' _ (by simp) (by
        intro a ha
        rcases List.mem_cons.1 ha with rfl | ha
        · decide
        · obtain ⟨n, -, rfl⟩ := List.mem_map.1 ha
          exact nodigit '/' (by decide) n)]
      rw [List.filter_cons, if_neg (by simp), filter_repr, parseAll_repr]
  | false =>
    have hne : id ≠ [] := by simpa using h
    simp only [keyOf, Bool.false_eq_true, if_false, if_neg hne, parseKey]
    constructor
    · apply hasSub_none _ _ 'z' (by decide)
      intro hz
      rcases mem_joinWith _ _ _ hz with h1 | ⟨a, ha, h1⟩
      · exact absurd h1 (by decide)
      · obtain ⟨n, -, rfl⟩ := List.mem_map.1 ha
        exact nodigit 'z' (by decide) n h1
    · rw [splitOn_joinWith '.' _ (by simpa using hne) (by
        intro a ha
        obtain ⟨n, -, rfl⟩ := List.mem_map.1 ha
        exact nodigit '.' (by decide) n)]
      rw [filter_repr, parseAll_repr]

theorem parseKeys_keyOf (zarr3 : Bool) (L : List Entry) (h : zarr3 = true ∨ [] ∉ chunksOf L) :
    parseKeys zarr3 (L.map (keyOf zarr3)) = .ok (chunksOf L) := by
  induction L with
  | nil => rfl
  | cons e L ih =>
    cases e with
    | info =>
      have : hasSub "zarr".toList (keyOf zarr3 .info) = true := by cases zarr3 <;> decide
      simp only [List.map_cons, parseKeys, this, if_true]
      exact ih h
    | chunk id =>
      have hid : zarr3 = true ∨ id ≠ [] := by
        rcases h with h | h
        · exact .inl h
        · right
          rintro rfl
          exact h (by simp [chunksOf])
      have hL : zarr3 = true ∨ [] ∉ chunksOf L := by
        rcases h with h | h
        · exact .inl h
        · right
          intro hm
          apply h
          simp only [chunksOf, List.filterMap_cons, List.mem_cons]
          exact .inr hm
      obtain ⟨h1, h2⟩ := parseKey_keyOf zarr3 id hid
      simp only [List.map_cons, parseKeys, h1, h2, ih hL, Bool.false_eq_true, if_false]
      rfl

/-- C138: from the keys in storage, in any order, exactly the chunks there are listed, in the same order; in either version of Zarr, but not
for a scalar in Zarr 2. -/
theorem C138_listed (zarr3 : Bool) (L : List Entry) (G : List Nat) (hl : ∀ id ∈ chunksOf L, id.length = G.length)
    (h : zarr3 = true ∨ G ≠ []) : chunkIds zarr3 (L.map (keyOf zarr3)) G = .ok (chunksOf L) := by
  simp only [chunkIds]
  rw [parseKeys_keyOf zarr3 L]
  · simp only
    rw [if_pos (List.all_eq_true.2 fun id hid => by simp [hl id hid])]
  · rcases h with h | h
    · exact .inl h
    · right
      intro hm
      have := hl _ hm
      cases G
      · exact h rfl
      · simp at this

/-- C138: a store with chunks of another number of dimensions is refused. -/
theorem C138_other_rank (zarr3 : Bool) (L : List Entry) (G S : List Nat) (devices : List (Bool × List Slice))
    (h : zarr3 = true ∨ [] ∉ chunksOf L) (id : List Nat) (hid : id ∈ chunksOf L) (hr : id.length ≠ G.length) :
    report zarr3 (L.map (keyOf zarr3)) G S devices = .error .assertion := by
  simp only [report, chunkIds, parseKeys_keyOf zarr3 L h]
  rw [if_neg]
  intro h
  exact hr (by simpa using List.all_eq_true.1 h id hid)

/-! ### The report -/

theorem toOption_iff (idx : List Slice) (G S id : List Nat) :
    ((indexToChunkId idx G S).toOption == some id) = true ↔ indexToChunkId idx G S = .ok id := by
  cases indexToChunkId idx G S <;> simp [Except.toOption]

theorem missing_spec (present : List (List Nat)) (G S : List Nat) (devices : List (Bool × List Slice))
    (h : ∀ x ∈ devices, x.1 = true → Aligned x.2 G S) :
    ∃ m, missing present G S devices = .ok m ∧
      ∀ id, m.count id = if id ∈ present then 0 else
        (devices.filter fun x => x.1 && (indexToChunkId x.2 G S).toOption == some id).length := by
  induction devices with
  | nil => exact ⟨[], rfl, fun id => by simp⟩
  | cons x devices ih =>
    obtain ⟨m, hm, hc⟩ := ih fun y hy => h y (List.mem_cons_of_mem _ hy)
    obtain ⟨b, idx⟩ := x
    cases b with
    | false => exact ⟨m, by simp [missing, hm], fun id => by simp [hc id]⟩
    | true =>
      obtain ⟨i, hi⟩ := (C138_accepts idx G S).2 (h _ (List.mem_cons_self ..) rfl)
      refine ⟨if i ∈ present then m else i :: m, by simp only [missing, hi, hm, Bool.not_true, Bool.false_eq_true, if_false], fun id => ?_⟩
      by_cases hp : i ∈ present
      · rw [if_pos hp, hc id]
        by_cases hid : id ∈ present
        · simp [hid]
        · have hne : i ≠ id := fun e => hid (e ▸ hp)
          simp [hid, hi, hne, Except.toOption]
      · rw [if_neg hp, List.count_cons, hc id]
        by_cases he : i = id
        · subst he; simp [hp, hi, Except.toOption]
        · by_cases hid : id ∈ present <;> simp [hid, hi, he, Except.toOption]

theorem elements_iff (idx : List Slice) (id G S : List Nat) (ha : Aligned idx G S) :
    (∀ p, Within idx G p ↔ InChunk id S p) ↔ indexToChunkId idx G S = .ok id := by
  obtain ⟨i, hi⟩ := (C138_accepts idx G S).2 ha
  constructor
  · intro hp
    obtain ⟨p, hp1, -⟩ := (C138_disjoint idx idx G S i i hi hi).1 rfl
    rw [hi, inChunk_unique i id S p (((C138_same_elements idx G S i hi).1 p).1 hp1) ((hp p).1 hp1)]
  · intro hi
    exact (C138_same_elements idx G S id hi).1

/-- C138: with the chunks of the store as large as the shards, and every local device holding one cell of the grid, the report has exactly
the chunks in the store, and as missing exactly the cells of local devices that the store does not have. -/
theorem C138_report (zarr3 : Bool) (L : List Entry) (G S : List Nat) (devices : List (Bool × List Slice))
    (hl : ∀ id ∈ chunksOf L, id.length = G.length) (hz : zarr3 = true ∨ G ≠ [])
    (h : ∀ x ∈ devices, x.1 = true → Aligned x.2 G S) :
    ∃ m, report zarr3 (L.map (keyOf zarr3)) G S devices = .ok (chunksOf L, m) ∧
      ∀ id, id ∈ m ↔ id ∉ chunksOf L ∧ ∃ idx, (true, idx) ∈ devices ∧ ∀ p, Within idx G p ↔ InChunk id S p := by
  obtain ⟨m, hm, hc⟩ := missing_spec (chunksOf L) G S devices h
  refine ⟨m, by simp only [report, C138_listed zarr3 L G hl hz, hm], fun id => ?_⟩
  rw [← List.count_pos_iff, hc id]
  by_cases hp : id ∈ chunksOf L
  · simp [hp]
  · simp only [hp, if_false, not_false_eq_true, true_and]
    constructor
    · intro hlt
      obtain ⟨x, hx⟩ := List.exists_mem_of_length_pos hlt
      obtain ⟨hx1, hx2⟩ := List.mem_filter.1 hx
      obtain ⟨b, idx⟩ := x
      rw [Bool.and_eq_true, toOption_iff] at hx2
      obtain ⟨rfl, hi⟩ := hx2
      exact ⟨idx, hx1, (elements_iff idx id G S (h _ hx1 rfl)).2 hi⟩
    · rintro ⟨idx, hx, hs⟩
      apply List.length_pos_of_mem (a := (true, idx))
      refine List.mem_filter.2 ⟨hx, ?_⟩
      rw [Bool.true_and, toOption_iff]
      exact (elements_iff idx id G S (h _ hx rfl)).1 hs

/-- C138: hence nothing is missing exactly if the store has the elements of every local shard. -/
theorem C138_complete (zarr3 : Bool) (L : List Entry) (G S : List Nat) (devices : List (Bool × List Slice))
    (hl : ∀ id ∈ chunksOf L, id.length = G.length) (hz : zarr3 = true ∨ G ≠ [])
    (h : ∀ x ∈ devices, x.1 = true → Aligned x.2 G S) :
    report zarr3 (L.map (keyOf zarr3)) G S devices = .ok (chunksOf L, []) ↔
      ∀ idx, (true, idx) ∈ devices → ∀ p, Within idx G p → ∃ id ∈ chunksOf L, InChunk id S p := by
  obtain ⟨m, hm, hi⟩ := C138_report zarr3 L G S devices hl hz h
  rw [hm]
  simp only [Except.ok.injEq, Prod.mk.injEq, true_and]
  constructor
  · rintro rfl idx hx p hp
    obtain ⟨id, hid⟩ := (C138_accepts idx G S).2 (h _ hx rfl)
    have hs := (C138_same_elements idx G S id hid).1
    refine ⟨id, ?_, (hs p).1 hp⟩
    by_cases hc : id ∈ chunksOf L
    · exact hc
    · exact absurd ((hi id).2 ⟨hc, idx, hx, hs⟩) (by simp)
  · intro hall
    cases m with
    | nil => rfl
    | cons id m =>
      exfalso
      obtain ⟨hn, idx, hx, hs⟩ := (hi id).1 (by simp)
      obtain ⟨i, hid⟩ := (C138_accepts idx G S).2 (h _ hx rfl)
      obtain ⟨p, hp, -⟩ := (C138_disjoint idx idx G S i i hid hid).1 rfl
      obtain ⟨id', hid', hp'⟩ := hall idx hx p hp
      exact hn (inChunk_unique id id' S p ((hs p).1 hp) hp' ▸ hid')

/-- C138: if some local device does not hold one cell of the grid, there is an exception and no report. -/
theorem C138_refused (zarr3 : Bool) (keys : List Str) (G S : List Nat) (devices : List (Bool × List Slice)) (idx : List Slice)
    (hx : (true, idx) ∈ devices) (h : ¬ Aligned idx G S) : ∃ e, report zarr3 keys G S devices = .error e := by
  have main : ∀ present, ∃ e, missing present G S devices = .error e := by
    intro present
    induction devices with
    | nil => cases hx
    | cons y devices ih =>
      obtain ⟨b, idx'⟩ := y
      cases b with
      | false =>
        simp only [List.mem_cons, Prod.mk.injEq, Bool.true_eq_false, false_and, false_or] at hx
        simpa [missing] using ih hx
      | true =>
        simp only [missing, Bool.not_true, Bool.false_eq_true, if_false]
        cases hi : indexToChunkId idx' G S with
        | error e => exact ⟨e, rfl⟩
        | ok i =>
          rcases List.mem_cons.1 hx with he | hx
          · simp only [Prod.mk.injEq, true_and] at he
            exact absurd ((C138_accepts idx' G S).1 ⟨i, hi⟩) (he ▸ h)
          · obtain ⟨e, he⟩ := ih hx
            exact ⟨e, by simp [he]⟩
  simp only [report]
  cases chunkIds zarr3 keys G with
  | error e => exact ⟨e, rfl⟩
  | ok present =>
    obtain ⟨e, he⟩ := main present
    exact ⟨e, by simp [he]⟩

/-- C138: devices of other processes do not matter, not even those with an index of another form. -/
theorem C138_other_devices (zarr3 : Bool) (keys : List Str) (G S : List Nat) (devices : List (Bool × List Slice)) :
    report zarr3 keys G S devices = report zarr3 keys G S (devices.filter (·.1)) := by
  have main : ∀ present, missing present G S devices = missing present G S (devices.filter (·.1)) := by
    intro present
    induction devices with
    | nil => rfl
    | cons y devices ih =>
      obtain ⟨b, idx⟩ := y
      cases b
      · simpa [missing] using ih
      · simp only [List.filter_cons, if_true, missing, ih]
  simp only [report, main]

/-! ### Findings -/

/-- C138 (finding): a missing shard is listed as often as local devices hold it. -/
theorem C138_repeated_fails (zarr3 : Bool) (L : List Entry) (G S : List Nat) (idx : List Slice) (n : Nat)
    (hl : ∀ id ∈ chunksOf L, id.length = G.length) (hz : zarr3 = true ∨ G ≠ []) (h : Aligned idx G S)
    (hm : ∀ id ∈ chunksOf L, ¬ ∀ p, Within idx G p ↔ InChunk id S p) :
    ∃ id, report zarr3 (L.map (keyOf zarr3)) G S (List.replicate n (true, idx)) = .ok (chunksOf L, List.replicate n id) := by
  obtain ⟨id, hid⟩ := (C138_accepts idx G S).2 h
  have hn : id ∉ chunksOf L := fun hc => hm id hc (C138_same_elements idx G S id hid).1
  refine ⟨id, ?_⟩
  have main : ∀ n, missing (chunksOf L) G S (List.replicate n (true, idx)) = .ok (List.replicate n id) := by
    intro n
    induction n with
    | zero => rfl
    | succ n ih => simp only [List.replicate_succ, missing, Bool.not_true, Bool.false_eq_true, if_false, hid, ih, if_neg hn]
  simp only [report, C138_listed zarr3 L G hl hz, main]

/-- C138 (finding): a scalar written with Zarr 2 is there under the key `0`, and the report raises an exception. -/
theorem C138_scalar_fails (S : List Nat) (devices : List (Bool × List Slice)) :
    report false [keyOf false .info, keyOf false (.chunk [])] [] S devices = .error .assertion := by
  have : chunkIds false [keyOf false .info, keyOf false (.chunk [])] [] = .error .assertion := rfl
  simp only [report, this]

/-- C138 (finding): an array without elements has no report but an exception. -/
theorem C138_empty_fails (zarr3 : Bool) (L : List Entry) (G S : List Nat) (devices : List (Bool × List Slice)) (idx : List Slice)
    (hx : (true, idx) ∈ devices) (h0 : 0 ∈ S) : ∃ e, report zarr3 (L.map (keyOf zarr3)) G S devices = .error e := by
  refine C138_refused zarr3 _ G S devices idx hx ?_
  intro ha
  clear hx
  induction idx generalizing G S with
  | nil =>
    cases G <;> cases S <;> simp only [Aligned] at ha
    cases h0
  | cons sl idx ih =>
    cases G <;> cases S <;> simp only [Aligned] at ha
    rcases List.mem_cons.1 h0 with h0 | h0
    · omega
    · exact ih _ _ h0 ha.2.2.2

/-- C138 (finding): if the chunks of the store are smaller than the shards (as with a limit on the size of chunks), their numbers are those
of another grid: a shard of which no element is in the store is not reported. -/
theorem C138_small_chunks_fails (zarr3 : Bool) (c : Nat) (hc : 0 < c) :
    report zarr3 ([Entry.info, .chunk [1]].map (keyOf zarr3)) [4 * c] [2 * c] [(true, [⟨some (2 * c), some (4 * c), none⟩])] = .ok ([[1]], []) ∧
    (∃ p, Within [⟨some (2 * c), some (4 * c), none⟩] [4 * c] p) ∧
    ∀ p, Within [⟨some (2 * c), some (4 * c), none⟩] [4 * c] p → ¬ InChunk [1] [c] p := by
  refine ⟨?_, ⟨[2 * c], ?_⟩, ?_⟩
  · have hl := C138_listed zarr3 [.info, .chunk [1]] [4 * c] (by simp [chunksOf]) (.inr (by simp))
    have hi : indexToChunkId [⟨some (2 * c), some (4 * c), none⟩] [4 * c] [2 * c] = .ok [1] := by
      rw [numbered_iff]
      exact ⟨.inl rfl, by omega, by simp only [Option.getD_some]; omega, by simp only [Option.getD_some]; omega, trivial⟩
    simp only [report, hl, missing, hi]
    simp [chunksOf]
  · exact ⟨by simp only [Option.getD_some]; omega, by simp only [Option.getD_some]; omega, trivial⟩
  · intro p hp
    cases p with
    | nil => simp [Within] at hp
    | cons x p =>
      simp only [Within, Option.getD_some] at hp
      simp only [InChunk]
      omega

/-- C138: two local devices and one of another process, and an array of 4 by 6 in shards of 2 by 6: the second shard is missing. -/
theorem C138_nonvacuous :
    let devices : List (Bool × List Slice) :=
      [(true, [⟨none, some 2, none⟩, ⟨none, none, none⟩]), (true, [⟨some 2, some 4, none⟩, ⟨none, none, none⟩]),
        (false, [⟨some 1, some 2, none⟩])]
    (∀ x ∈ devices, x.1 = true → Aligned x.2 [4, 6] [2, 6]) ∧
    keyOf true (.chunk [0, 12]) = "c/0/12".toList ∧ keyOf false (.chunk [0, 12]) = "0.12".toList ∧
    report true ([Entry.chunk [0, 0], .info].map (keyOf true)) [4, 6] [2, 6] devices = .ok ([[0, 0]], [[1, 0]]) := by
  refine ⟨?_, by decide, by decide, rfl⟩
  intro x hx h
  simp only [List.mem_cons, List.not_mem_nil, or_false] at hx
  rcases hx with rfl | rfl | rfl
  · exact ⟨.inl rfl, by decide, ⟨0, rfl, rfl⟩, .inl rfl, by decide, ⟨0, rfl, rfl⟩, trivial⟩
  · exact ⟨.inl rfl, by decide, ⟨1, rfl, rfl⟩, .inl rfl, by decide, ⟨0, rfl, rfl⟩, trivial⟩
  · cases h

end Verif.Emergency.ChunkDebug
