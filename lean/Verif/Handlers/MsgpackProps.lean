import Verif.Handlers.MsgpackSpec

/-! Properties of trees written with msgpack (C93). -/

namespace Verif.Handlers.Msgpack

open Verif.NameFormat (dec dec_inj)
open Spec

/-! ### Arrays -/

theorem prod_eq (s : List Nat) : prod s = count s := by
  induction s with
  | nil => rfl
  | cons n s ih => simp [prod, count, ih]

theorem flatten_len (n : Nat) : ∀ l : List (List Nat), (∀ e ∈ l, e.length = n) → l.flatten.length = l.length * n
  | [], _ => by simp
  | e :: l, h => by
    rw [List.flatten_cons, List.length_append, flatten_len n l (fun x hx => h x (List.mem_cons_of_mem _ hx)),
      h e List.mem_cons_self, List.length_cons, Nat.add_mul, Nat.one_mul, Nat.add_comm]

theorem groups_flatten (n : Nat) : ∀ l : List (List Nat), (∀ e ∈ l, e.length = n) → groups n l.length l.flatten = l
  | [], _ => rfl
  | e :: l, h => by
    have he : e.length = n := h e List.mem_cons_self
    simp only [List.length_cons, groups, List.flatten_cons]
    rw [List.take_left' he, List.drop_left' he, groups_flatten n l (fun x hx => h x (List.mem_cons_of_mem _ hx))]

theorem toBytes_plain {sizes a} (h : Plain sizes a) : toBytes a = a.elems.flatten := by
  simp [toBytes, h.native]

theorem fromBytes_toBytes {sizes a} (h : Plain sizes a) {limit x} (hx : ndarrayToBytes limit a = some x) :
    ndarrayFromBytes sizes x.1 x.2.1 x.2.2 = some a := by
  simp only [ndarrayToBytes, h.simple] at hx
  split at hx
  · cases hx
  · split at hx
    · cases hx
    · cases hx
      have hl : (toBytes a).length = a.elems.length * a.item := by
        rw [toBytes_plain h, flatten_len a.item _ h.width]
      have hd : (toBytes a).length / a.item = a.elems.length := by rw [hl, Nat.mul_div_cancel _ h.positive]
      have hm : (toBytes a).length % a.item = 0 := by rw [hl]; exact Nat.mul_mod_left _ _
      simp only [ndarrayFromBytes, h.dtype, Option.bind_some, hd, hm]
      rw [if_neg]
      · rw [toBytes_plain h, groups_flatten _ _ h.width]
        rcases a with ⟨n, i, b, o, s, e⟩
        have h1 := h.native; have h2 := h.simple
        simp only at h1 h2
        subst h1 h2; rfl
      · rw [prod_eq, ← h.full]
        have := h.positive
        omega

/-! ### The bytes -/

mutual
def StrKeys : Tree → Prop
  | .list xs | .tuple xs => StrKeysSeq xs
  | .dict d => StrKeysDict d
  | _ => True
def StrKeysSeq : Seq → Prop
  | .nil => True
  | .cons t r => StrKeys t ∧ StrKeysSeq r
def StrKeysDict : Dict → Prop
  | .nil => True
  | .cons k t r => (∃ s, k = .str s) ∧ StrKeys t ∧ StrKeysDict r
end

mutual
theorem keys_str : ∀ t : Tree, Keys t → StrKeys t
  | .prim _, _ => by simp [StrKeys]
  | .complex _ _, _ => by simp [StrKeys]
  | .custom, _ => by simp [StrKeys]
  | .arr _ _, _ => by simp [StrKeys]
  | .scalar _, _ => by simp [StrKeys]
  | .list xs, h => by simp only [Keys] at h; simp only [StrKeys]; exact keys_strSeq xs h
  | .tuple xs, h => by simp only [Keys] at h; simp only [StrKeys]; exact keys_strSeq xs h
  | .dict d, h => by simp only [Keys] at h; simp only [StrKeys]; exact keys_strDict d h
theorem keys_strSeq : ∀ t : Seq, KeysSeq t → StrKeysSeq t
  | .nil, _ => by simp [StrKeysSeq]
  | .cons t r, h => by simp only [KeysSeq] at h; simp only [StrKeysSeq]; exact ⟨keys_str t h.1, keys_strSeq r h.2⟩
theorem keys_strDict : ∀ t : Dict, KeysDict t → StrKeysDict t
  | .nil, _ => by simp [StrKeysDict]
  | .cons k t r, h => by
    simp only [KeysDict] at h; simp only [StrKeysDict]
    obtain ⟨⟨s, hs, _⟩, h1, h2⟩ := h
    exact ⟨⟨s, hs⟩, keys_str t h1, keys_strDict r h2⟩
end

mutual
theorem unpack_pack {sizes limit} : ∀ (t : Tree) (w : Wire), Arrays sizes t → StrKeys t → pack limit t = some w →
    unpack sizes w = some (numpy t)
  | .prim p, w, _, _, h => by cases h; rfl
  | .complex _ _, w, _, _, h => by cases h; rfl
  | .custom, w, _, _, h => by cases h
  | .arr j a, w, ha, _, h => by
    simp only [pack, Option.map_eq_some_iff] at h
    obtain ⟨x, hx, rfl⟩ := h
    simp only [unpack, numpy, fromBytes_toBytes (by simpa [Arrays] using ha) hx, Option.map_some]
  | .scalar a, w, ha, _, h => by
    simp only [pack, Option.map_eq_some_iff] at h
    obtain ⟨x, hx, rfl⟩ := h
    simp only [unpack, numpy, fromBytes_toBytes (by simpa [Arrays] using ha) hx, Option.map_some]
  | .list xs, w, ha, hk, h => by
    simp only [pack, Option.map_eq_some_iff] at h
    obtain ⟨x, hx, rfl⟩ := h
    simp only [unpack, numpy, unpackSeq_packSeq xs x (by simpa [Arrays] using ha) (by simpa [StrKeys] using hk) hx, Option.map_some]
  | .tuple xs, w, ha, hk, h => by
    simp only [pack, Option.map_eq_some_iff] at h
    obtain ⟨x, hx, rfl⟩ := h
    simp only [unpack, numpy, unpackSeq_packSeq xs x (by simpa [Arrays] using ha) (by simpa [StrKeys] using hk) hx, Option.map_some]
  | .dict d, w, ha, hk, h => by
    simp only [pack, Option.map_eq_some_iff] at h
    obtain ⟨x, hx, rfl⟩ := h
    simp only [unpack, numpy, unpackMap_packDict d x (by simpa [Arrays] using ha) (by simpa [StrKeys] using hk) hx, Option.map_some]
theorem unpackSeq_packSeq {sizes limit} : ∀ (t : Seq) (w : Wires), ArraysSeq sizes t → StrKeysSeq t → packSeq limit t = some w →
    unpackSeq sizes w = some (numpySeq t)
  | .nil, w, _, _, h => by cases h; rfl
  | .cons t r, w, ha, hk, h => by
    simp only [packSeq, Option.bind_eq_some_iff, Option.map_eq_some_iff] at h
    obtain ⟨x, hx, y, hy, rfl⟩ := h
    simp only [ArraysSeq] at ha
    simp only [StrKeysSeq] at hk
    simp only [unpackSeq, numpySeq, unpack_pack t x ha.1 hk.1 hx, unpackSeq_packSeq r y ha.2 hk.2 hy, Option.bind_some, Option.map_some]
theorem unpackMap_packDict {sizes limit} : ∀ (t : Dict) (w : WireMap), ArraysDict sizes t → StrKeysDict t → packDict limit t = some w →
    unpackMap sizes w = some (numpyDict t)
  | .nil, w, _, _, h => by cases h; rfl
  | .cons k t r, w, ha, hk, h => by
    simp only [packDict, Option.bind_eq_some_iff, Option.map_eq_some_iff] at h
    obtain ⟨x, hx, y, hy, rfl⟩ := h
    simp only [ArraysDict] at ha
    simp only [StrKeysDict] at hk
    obtain ⟨⟨s, rfl⟩, hk1, hk2⟩ := hk
    simp only [unpackMap, numpyDict, unpack_pack t x ha.1 hk1 hx, unpackMap_packDict r y ha.2 hk2 hy, Option.bind_some, Option.map_some]
end

/-! ### Chunks -/

theorem pieces_flatten {size : Nat} (hs : 0 < size) : ∀ (n : Nat) (l : List (List Nat)), l.length ≤ n → (pieces size n l).flatten = l
  | 0, [], _ => rfl
  | n + 1, [], _ => rfl
  | n + 1, a :: l, h => by
    simp only [pieces, List.flatten_cons]
    rw [pieces_flatten hs n _ (by rw [List.length_drop]; simp only [List.length_cons] at h ⊢; omega), List.take_append_drop]

theorem pieces_mem {size : Nat} : ∀ (n : Nat) (l : List (List Nat)), ∀ p ∈ pieces size n l, p.length ≤ size ∧ ∀ e ∈ p, e ∈ l
  | 0, _, p, h => by simp [pieces] at h
  | n + 1, [], p, h => by simp [pieces] at h
  | n + 1, a :: l, p, h => by
    simp only [pieces, List.mem_cons] at h
    rcases h with rfl | h
    · exact ⟨by rw [List.length_take]; omega, fun e he => List.mem_of_mem_take he⟩
    · obtain ⟨h1, h2⟩ := pieces_mem n _ p h
      exact ⟨h1, fun e he => List.mem_of_mem_drop (h2 e he)⟩

theorem get_indexed : ∀ (ts : List Tree) (i j : Nat), i ≤ j → (indexed i ts).get (.str (dec j)) = ts[j - i]?
  | [], i, j, _ => by simp [indexed, Dict.get]
  | t :: ts, i, j, h => by
    simp only [indexed, Dict.get]
    by_cases hij : i = j
    · subst hij; simp
    · have hne : Key.str (dec i) ≠ Key.str (dec j) := fun e => hij (dec_inj (by injection e))
      rw [if_neg hne, get_indexed ts (i + 1) j (by omega)]
      have : j - i = (j - (i + 1)) + 1 := by omega
      rw [this, List.getElem?_cons_succ]

theorem size_indexed : ∀ (ts : List Tree) (i : Nat), (indexed i ts).size = ts.length
  | [], _ => rfl
  | _ :: ts, i => by simp [indexed, Dict.size, size_indexed ts]

theorem dictToTuple_of {d : Dict} : ∀ (ts : List Tree) (i : Nat), (∀ j < ts.length, d.get (.str (dec (i + j))) = ts[j]?) →
    dictToTuple d i ts.length = some ts
  | [], _, _ => rfl
  | t :: ts, i, h => by
    have h0 := h 0 (by simp)
    simp only [Nat.add_zero, List.getElem?_cons_zero] at h0
    simp only [List.length_cons, dictToTuple, h0, Option.bind_some]
    rw [dictToTuple_of ts (i + 1) (fun j hj => by
      have := h (j + 1) (by simp only [List.length_cons]; omega)
      rw [List.getElem?_cons_succ] at this
      rw [← this]; congr 3; omega)]
    rfl

theorem dictToTuple_indexed (ts : List Tree) : dictToTuple (indexed 0 ts) 0 (indexed 0 ts).size = some ts := by
  rw [size_indexed]
  refine dictToTuple_of ts 0 fun j _ => ?_
  rw [Nat.zero_add, get_indexed ts 0 j (Nat.zero_le _), Nat.sub_zero]

theorem all_map {α β : Type} {f : β → Option α} {g : α → β} (h : ∀ a, f (g a) = some a) : ∀ l : List α, all f (l.map g) = some l
  | [] => rfl
  | a :: l => by simp [all, h, all_map h l]

theorem numpy_indexed : ∀ (ts : List Tree) (i : Nat), (∀ t ∈ ts, numpy t = t) → numpyDict (indexed i ts) = indexed i ts
  | [], _, _ => rfl
  | t :: ts, i, h => by
    simp only [indexed, numpyDict, h t List.mem_cons_self, numpy_indexed ts (i + 1) (fun x hx => h x (List.mem_cons_of_mem _ hx))]

theorem numpy_chunk (max : Nat) (a : Arr) : numpy (chunk max a) = chunk max a := by
  simp only [chunk, numpy, numpyDict]
  rw [numpy_indexed, numpy_indexed]
  · intro t ht
    obtain ⟨p, -, rfl⟩ := List.mem_map.1 ht
    rfl
  · intro t ht
    obtain ⟨p, -, rfl⟩ := List.mem_map.1 ht
    rfl

theorem arrays_indexed {sizes} : ∀ (ts : List Tree) (i : Nat), (∀ t ∈ ts, Arrays sizes t) → ArraysDict sizes (indexed i ts)
  | [], _, _ => by simp [indexed, ArraysDict]
  | t :: ts, i, h => by
    simp only [indexed, ArraysDict]
    exact ⟨h t List.mem_cons_self, arrays_indexed ts (i + 1) (fun x hx => h x (List.mem_cons_of_mem _ hx))⟩

theorem str_indexed : ∀ (ts : List Tree) (i : Nat), (∀ t ∈ ts, StrKeys t) → StrKeysDict (indexed i ts)
  | [], _, _ => by simp [indexed, StrKeysDict]
  | t :: ts, i, h => by
    simp only [indexed, StrKeysDict]
    exact ⟨⟨_, rfl⟩, h t List.mem_cons_self, str_indexed ts (i + 1) (fun x hx => h x (List.mem_cons_of_mem _ hx))⟩

theorem arrays_chunk {sizes a} (max : Nat) (h : Plain sizes a) : Arrays sizes (chunk max a) := by
  simp only [chunk, Arrays, ArraysDict, true_and, and_true]
  refine ⟨arrays_indexed _ _ fun t ht => ?_, arrays_indexed _ _ fun t ht => ?_⟩
  · obtain ⟨p, -, rfl⟩ := List.mem_map.1 ht
    simp [Arrays]
  · obtain ⟨p, hp, rfl⟩ := List.mem_map.1 ht
    simp only [Arrays]
    obtain ⟨-, h2⟩ := pieces_mem _ _ p hp
    exact ⟨h.dtype, h.positive, h.native, h.simple, by simp [count], fun e he => h.width e (h2 e he)⟩

theorem str_chunk (max : Nat) (a : Arr) : StrKeys (chunk max a) := by
  simp only [chunk, StrKeys, StrKeysDict, true_and, and_true]
  refine ⟨⟨_, rfl⟩, ⟨_, rfl⟩, str_indexed _ _ fun t ht => ?_, ⟨_, rfl⟩, str_indexed _ _ fun t ht => ?_⟩
  · obtain ⟨p, -, rfl⟩ := List.mem_map.1 ht
    simp [StrKeys]
  · obtain ⟨p, -, rfl⟩ := List.mem_map.1 ht
    simp [StrKeys]

theorem unchunk_chunk {sizes a} (max : Nat) (h : Plain sizes a) (hne : a.elems ≠ []) :
    unchunkLeaves (chunk max a) = some (.arr false a) := by
  have hpos : 0 < Nat.max 1 (max / a.item) := Nat.lt_of_lt_of_le Nat.one_pos (Nat.le_max_left _ _)
  have hflat := pieces_flatten hpos a.elems.length a.elems (Nat.le_refl _)
  have hk1 : marker ≠ Key.str "shape".toList := by decide
  have hk2 : marker ≠ Key.str "chunks".toList := by decide
  have hk3 : Key.str "shape".toList ≠ Key.str "chunks".toList := by decide
  have hsh : all asNat (a.shape.map fun n : Nat => Tree.prim (.int (n : Int))) = some a.shape :=
    all_map (fun n => by simp [asNat]) _
  have hps : ∃ p ps, pieces (Nat.max 1 (max / a.item)) a.elems.length a.elems = p :: ps := by
    cases hp : pieces (Nat.max 1 (max / a.item)) a.elems.length a.elems with
    | nil => rw [hp] at hflat; exact absurd hflat.symm hne
    | cons p ps => exact ⟨p, ps, rfl⟩
  obtain ⟨p, ps, hps⟩ := hps
  have hch : all asArr ((pieces (Nat.max 1 (max / a.item)) a.elems.length a.elems).map
      fun p => Tree.arr false { a with shape := [p.length], elems := p }) =
      some ((pieces (Nat.max 1 (max / a.item)) a.elems.length a.elems).map
      fun p => { a with shape := [p.length], elems := p }) := by
    have := all_map (f := asArr) (g := fun x => Tree.arr false x) (fun _ => rfl)
      ((pieces (Nat.max 1 (max / a.item)) a.elems.length a.elems).map fun p => ({ a with shape := [p.length], elems := p } : Arr))
    rwa [List.map_map] at this
  simp only [chunk, unchunkLeaves, Dict.get, if_true, Option.isSome_some, unchunk, if_neg hk1, if_neg hk2, if_neg hk3,
    Option.bind_some, asDict, dictToTuple_indexed, hsh, hch]
  simp only [List.map_map, Function.comp_def, List.map_id', hflat]
  simp only [hps, List.map_cons, List.head?_cons, Option.bind_some, prod_eq, ← h.full, if_true]

/-! ### The whole tree -/

mutual
theorem arrays_c {sizes} (max : Nat) : ∀ t : Tree, Arrays sizes t → Arrays sizes (chunkLeaves max (npConvert t))
  | .prim _, _ => by simp [npConvert, chunkLeaves, Arrays]
  | .complex _ _, _ => by simp [npConvert, chunkLeaves, Arrays]
  | .custom, _ => by simp [npConvert, chunkLeaves, Arrays]
  | .scalar _, h => by simpa [npConvert, chunkLeaves, Arrays] using h
  | .list _, h => by simpa [npConvert, chunkLeaves, Arrays] using h
  | .tuple _, h => by simpa [npConvert, chunkLeaves, Arrays] using h
  | .arr j a, h => by
    simp only [npConvert, chunkLeaves]
    split
    · exact arrays_chunk max (by simpa [Arrays] using h)
    · simpa [Arrays] using h
  | .dict d, h => by
    simp only [Arrays] at h
    simp only [npConvert, chunkLeaves, Arrays]
    exact arrays_cDict max d h
theorem arrays_cDict {sizes} (max : Nat) : ∀ d : Dict, ArraysDict sizes d → ArraysDict sizes (chunkLeavesDict max (npConvertDict d))
  | .nil, _ => by simp [npConvertDict, chunkLeavesDict, ArraysDict]
  | .cons k t r, h => by
    simp only [ArraysDict] at h
    simp only [npConvertDict, chunkLeavesDict, ArraysDict]
    exact ⟨arrays_c max t h.1, arrays_cDict max r h.2⟩
end

mutual
theorem str_c (max : Nat) : ∀ t : Tree, StrKeys t → StrKeys (chunkLeaves max (npConvert t))
  | .prim _, _ => by simp [npConvert, chunkLeaves, StrKeys]
  | .complex _ _, _ => by simp [npConvert, chunkLeaves, StrKeys]
  | .custom, _ => by simp [npConvert, chunkLeaves, StrKeys]
  | .scalar _, h => by simp [npConvert, chunkLeaves, StrKeys]
  | .list _, h => by simpa [npConvert, chunkLeaves, StrKeys] using h
  | .tuple _, h => by simpa [npConvert, chunkLeaves, StrKeys] using h
  | .arr j a, h => by
    simp only [npConvert, chunkLeaves]
    split
    · exact str_chunk max a
    · simp [StrKeys]
  | .dict d, h => by
    simp only [StrKeys] at h
    simp only [npConvert, chunkLeaves, StrKeys]
    exact str_cDict max d h
theorem str_cDict (max : Nat) : ∀ d : Dict, StrKeysDict d → StrKeysDict (chunkLeavesDict max (npConvertDict d))
  | .nil, _ => by simp [npConvertDict, chunkLeavesDict, StrKeysDict]
  | .cons k t r, h => by
    simp only [StrKeysDict] at h
    simp only [npConvertDict, chunkLeavesDict, StrKeysDict]
    exact ⟨h.1, str_c max t h.2.1, str_cDict max r h.2.2⟩
end

theorem no_marker (max : Nat) : ∀ d : Dict, KeysDict d → (numpyDict (chunkLeavesDict max (npConvertDict d))).get marker = none
  | .nil, _ => rfl
  | .cons k t r, h => by
    simp only [KeysDict] at h
    obtain ⟨⟨s, rfl, hs⟩, -, h2⟩ := h
    have hne : Key.str s ≠ marker := fun e => hs (by simpa [marker] using e)
    simp only [npConvertDict, chunkLeavesDict, numpyDict, Dict.get, if_neg hne]
    exact no_marker max r h2

mutual
theorem unchunk_c {sizes} (max : Nat) : ∀ t : Tree, Arrays sizes t → Keys t →
    unchunkLeaves (numpy (chunkLeaves max (npConvert t))) = some (numpy t)
  | .prim _, _, _ => rfl
  | .complex _ _, _, _ => rfl
  | .custom, _, _ => rfl
  | .scalar _, _, _ => rfl
  | .list _, _, _ => rfl
  | .tuple _, _, _ => rfl
  | .arr j a, h, _ => by
    simp only [npConvert, chunkLeaves]
    split
    · rename_i hb
      rw [numpy_chunk]
      refine unchunk_chunk max (by simpa [Arrays] using h) ?_
      intro e; rw [e] at hb; simp at hb
    · rfl
  | .dict d, h, hk => by
    simp only [Arrays] at h
    simp only [Keys] at hk
    simp only [npConvert, chunkLeaves, numpy, unchunkLeaves, no_marker max d hk, Option.isSome_none, unchunk_cDict max d h hk,
      Option.map_some, Bool.false_eq_true, if_false]
theorem unchunk_cDict {sizes} (max : Nat) : ∀ d : Dict, ArraysDict sizes d → KeysDict d →
    unchunkLeavesDict (numpyDict (chunkLeavesDict max (npConvertDict d))) = some (numpyDict d)
  | .nil, _, _ => rfl
  | .cons k t r, h, hk => by
    simp only [ArraysDict] at h
    simp only [KeysDict] at hk
    simp only [npConvertDict, chunkLeavesDict, numpyDict, unchunkLeavesDict, unchunk_c max t h.1 hk.2.1, unchunk_cDict max r h.2 hk.2.2,
      Option.bind_some, Option.map_some]
end

/-- C93: whatever can be written is read back as it was, with NumPy arrays for JAX arrays, whatever the sizes of chunks
and the limit, and however the tree is nested: for trees whose arrays are stored with the least significant byte first and
whose keys are strings other than the reserved one. -/
theorem C93_round_trip (sizes : List Char → Option Nat) (max limit : Nat) (t : Tree) (w : Wire)
    (ha : Arrays sizes t) (hk : Keys t) (hw : serialize max limit t = some w) : restore sizes w = some (numpy t) := by
  rw [restore, unpack_pack _ w (arrays_c max t ha) (str_c max t (keys_str t hk)) hw, Option.bind_some]
  exact unchunk_c max t ha hk

/-! ### Large arrays -/

theorem bytes_len {sizes a} (h : Plain sizes a) : (toBytes a).length = bytes a := by
  rw [toBytes_plain h, flatten_len a.item _ h.width, bytes]

theorem to_some {sizes limit a} (h : Plain sizes a) (hb : bytes a ≤ limit) : ∃ x, ndarrayToBytes limit a = some x := by
  simp only [ndarrayToBytes, h.simple, bytes_len h]
  rw [if_neg (by simp), if_neg (by omega)]
  exact ⟨_, rfl⟩

mutual
theorem pack_small {sizes limit} : ∀ t : Tree, Arrays sizes t → Small limit t → ∃ w, pack limit t = some w
  | .prim _, _, _ => ⟨_, rfl⟩
  | .complex _ _, _, _ => ⟨_, rfl⟩
  | .custom, _, h => by simp [Small] at h
  | .arr j a, ha, h => by
    obtain ⟨x, hx⟩ := to_some (sizes := sizes) (limit := limit) (a := a) (by simpa [Arrays] using ha) (by simpa [Small] using h)
    simp only [pack, hx, Option.map_some]; exact ⟨_, rfl⟩
  | .scalar a, ha, h => by
    obtain ⟨x, hx⟩ := to_some (sizes := sizes) (limit := limit) (a := a) (by simpa [Arrays] using ha) (by simpa [Small] using h)
    simp only [pack, hx, Option.map_some]; exact ⟨_, rfl⟩
  | .list xs, ha, h => by
    obtain ⟨x, hx⟩ := pack_smallSeq (sizes := sizes) (limit := limit) xs (by simpa [Arrays] using ha) (by simpa [Small] using h)
    simp only [pack, hx, Option.map_some]; exact ⟨_, rfl⟩
  | .tuple xs, ha, h => by
    obtain ⟨x, hx⟩ := pack_smallSeq (sizes := sizes) (limit := limit) xs (by simpa [Arrays] using ha) (by simpa [Small] using h)
    simp only [pack, hx, Option.map_some]; exact ⟨_, rfl⟩
  | .dict d, ha, h => by
    obtain ⟨x, hx⟩ := pack_smallDict (sizes := sizes) (limit := limit) d (by simpa [Arrays] using ha) (by simpa [Small] using h)
    simp only [pack, hx, Option.map_some]; exact ⟨_, rfl⟩
theorem pack_smallSeq {sizes limit} : ∀ t : Seq, ArraysSeq sizes t → SmallSeq limit t → ∃ w, packSeq limit t = some w
  | .nil, _, _ => ⟨_, rfl⟩
  | .cons t r, ha, h => by
    simp only [ArraysSeq] at ha
    simp only [SmallSeq] at h
    obtain ⟨x, hx⟩ := pack_small t ha.1 h.1
    obtain ⟨y, hy⟩ := pack_smallSeq r ha.2 h.2
    simp only [packSeq, hx, hy, Option.bind_some, Option.map_some]; exact ⟨_, rfl⟩
theorem pack_smallDict {sizes limit} : ∀ t : Dict, ArraysDict sizes t → SmallDict limit t → ∃ w, packDict limit t = some w
  | .nil, _, _ => ⟨_, rfl⟩
  | .cons k t r, ha, h => by
    simp only [ArraysDict] at ha
    simp only [SmallDict] at h
    obtain ⟨x, hx⟩ := pack_small t ha.1 h.1
    obtain ⟨y, hy⟩ := pack_smallDict r ha.2 h.2
    simp only [packDict, hx, hy, Option.bind_some, Option.map_some]; exact ⟨_, rfl⟩
end

theorem small_indexed {limit} : ∀ (ts : List Tree) (i : Nat), (∀ t ∈ ts, Small limit t) → SmallDict limit (indexed i ts)
  | [], _, _ => by simp [indexed, SmallDict]
  | t :: ts, i, h => by
    simp only [indexed, SmallDict]
    exact ⟨h t List.mem_cons_self, small_indexed ts (i + 1) (fun x hx => h x (List.mem_cons_of_mem _ hx))⟩

theorem small_chunk {max limit a} (hm : max ≤ limit) (hi : a.item ≤ limit) : Small limit (chunk max a) := by
  simp only [chunk, Small, SmallDict, true_and, and_true]
  refine ⟨small_indexed _ _ fun t ht => ?_, small_indexed _ _ fun t ht => ?_⟩
  · obtain ⟨p, -, rfl⟩ := List.mem_map.1 ht
    simp [Small]
  · obtain ⟨p, hp, rfl⟩ := List.mem_map.1 ht
    simp only [Small, bytes]
    obtain ⟨h1, -⟩ := pieces_mem _ _ p hp
    refine Nat.le_trans (Nat.mul_le_mul_right _ h1) ?_
    rcases Nat.le_total 1 (max / a.item) with hle | hle
    · rw [Nat.max_eq_max, Nat.max_eq_right hle]
      exact Nat.le_trans (Nat.div_mul_le_self _ _) hm
    · rw [Nat.max_eq_max, Nat.max_eq_left hle, Nat.one_mul]; exact hi

mutual
theorem small_c {max limit} (hm : max ≤ limit) : ∀ t : Tree, SmallInside limit t → Small limit (chunkLeaves max (npConvert t))
  | .prim _, _ => by simp [npConvert, chunkLeaves, Small]
  | .complex _ _, _ => by simp [npConvert, chunkLeaves, Small]
  | .custom, h => by simp [SmallInside, Small] at h
  | .scalar _, h => by simpa [npConvert, chunkLeaves, SmallInside] using h
  | .list _, h => by simpa [npConvert, chunkLeaves, SmallInside] using h
  | .tuple _, h => by simpa [npConvert, chunkLeaves, SmallInside] using h
  | .arr j a, h => by
    simp only [SmallInside] at h
    simp only [npConvert, chunkLeaves]
    split
    · exact small_chunk hm h
    · simp only [Small, bytes]; omega
  | .dict d, h => by
    simp only [SmallInside] at h
    simp only [npConvert, chunkLeaves, Small]
    exact small_cDict hm d h
theorem small_cDict {max limit} (hm : max ≤ limit) : ∀ d : Dict, SmallInsideDict limit d → SmallDict limit (chunkLeavesDict max (npConvertDict d))
  | .nil, _ => by simp [npConvertDict, chunkLeavesDict, SmallDict]
  | .cons k t r, h => by
    simp only [SmallInsideDict] at h
    simp only [npConvertDict, chunkLeavesDict, SmallDict]
    exact ⟨small_c hm t h.1, small_cDict hm r h.2⟩
end

/-- C93: arrays of any size can be written where they are the whole tree or inside dictionaries only, as long as a chunk
stays below the limit; everything else must itself be below the limit. -/
theorem C93_any_size (sizes : List Char → Option Nat) (max limit : Nat) (t : Tree) (hm : max ≤ limit)
    (ha : Arrays sizes t) (hs : SmallInside limit t) : ∃ w, serialize max limit t = some w :=
  pack_small _ (arrays_c max t ha) (small_c hm t hs)

/-- C93 (finding): an array above the limit inside a list or a tuple cannot be written, although the same array in a
dictionary can: such arrays are not cut into chunks. -/
theorem C93_large_in_list_fails (sizes : List Char → Option Nat) (max limit : Nat) (j : Bool) (a : Arr) (ha : Plain sizes a)
    (hb : limit < bytes a) (hm : max ≤ limit) (hi : a.item ≤ limit) (k : Key) :
    serialize max limit (.list (.cons (.arr j a) .nil)) = none ∧
    serialize max limit (.tuple (.cons (.arr j a) .nil)) = none ∧
    serialize max limit (.dict (.cons k (.list (.cons (.arr j a) .nil)) .nil)) = none ∧
    ∃ w, serialize max limit (.dict (.cons k (.arr j a) .nil)) = some w := by
  have h : ndarrayToBytes limit a = none := by
    simp only [ndarrayToBytes, bytes_len ha]
    split
    · rfl
    · rfl
  refine ⟨?_, ?_, ?_, C93_any_size sizes max limit _ hm ?_ ?_⟩
  · simp [serialize, npConvert, chunkLeaves, pack, packSeq, h]
  · simp [serialize, npConvert, chunkLeaves, pack, packSeq, h]
  · simp [serialize, npConvert, npConvertDict, chunkLeaves, chunkLeavesDict, pack, packDict, packSeq, h]
  · simp [Arrays, ArraysDict, ha]
  · simp [SmallInside, SmallInsideDict, hi]

/-- C93 (finding): an array stored with the most significant byte first is read back without an error and with the bytes of
each element in the wrong order: the name of its dtype does not say how it is stored. -/
theorem C93_big_endian_fails (sizes : List Char → Option Nat) (max limit : Nat) (j : Bool) (a : Arr)
    (ha : Plain sizes { a with big := false }) (hbig : a.big = true) (hb : bytes a ≤ max) (hl : bytes a ≤ limit) :
    ∃ w, serialize max limit (.arr j a) = some w ∧
      restore sizes w = some (.arr false { a with big := false, elems := a.elems.map List.reverse }) := by
  have hp : Plain sizes { a with big := false, elems := a.elems.map List.reverse } :=
    ⟨ha.dtype, ha.positive, rfl, ha.simple, by simpa using ha.full, fun e he => by
      obtain ⟨e', he', rfl⟩ := List.mem_map.1 he
      rw [List.length_reverse]; exact ha.width e' he'⟩
  have hbb : bytes { a with big := false, elems := a.elems.map List.reverse } = bytes a := by simp [bytes]
  have htb : toBytes { a with big := false, elems := a.elems.map List.reverse } = toBytes a := by
    simp [toBytes, hbig, Function.comp_def]
  have hx : ∃ x, ndarrayToBytes limit { a with big := false, elems := a.elems.map List.reverse } = some x :=
    to_some hp (by rw [hbb]; exact hl)
  obtain ⟨x, hx⟩ := hx
  have hxa : ndarrayToBytes limit a = some x := by
    simp only [ndarrayToBytes] at hx ⊢
    rw [htb] at hx
    exact hx
  have hr := fromBytes_toBytes hp hx
  refine ⟨.ndarray x.1 x.2.1 x.2.2, ?_, ?_⟩
  · simp only [serialize, npConvert, chunkLeaves]
    rw [if_neg (by simp only [bytes] at hb; omega)]
    simp [pack, hxa]
  · simp [restore, unpack, hr, unchunkLeaves]

/-- C93 (finding): a tree with an integer key in a dictionary is written without an error but cannot be read back. -/
theorem C93_int_key_fails (sizes : List Char → Option Nat) (max limit : Nat) (n : Int) (p : Prim) (r : Dict) (w : Wire)
    (hw : serialize max limit (.dict (.cons (.int n) (.prim p) r)) = some w) : restore sizes w = none := by
  simp only [serialize, npConvert, npConvertDict, chunkLeaves, chunkLeavesDict, pack, packDict, Option.map_eq_some_iff,
    Option.bind_some] at hw
  obtain ⟨x, ⟨y, -, rfl⟩, rfl⟩ := hw
  simp [restore, unpack, unpackMap]

/-- C93 (finding): a dictionary of the user with the reserved key is written without an error but is not read back. -/
theorem C93_reserved_key_fails (sizes : List Char → Option Nat) (max limit : Nat) (p q : Prim) (s : List Char)
    (hs : s ≠ "shape".toList) :
    ∃ w, serialize max limit (.dict (.cons marker (.prim p) (.cons (.str s) (.prim q) .nil))) = some w ∧ restore sizes w = none := by
  refine ⟨_, rfl, ?_⟩
  have h1 : marker ≠ Key.str "shape".toList := by decide
  have h2 : Key.str s ≠ Key.str "shape".toList := fun e => hs (by injection e)
  have h3 : ∀ d, restore sizes (.map (.cons marker (.prim p) (.cons (.str s) (.prim q) d))) =
      (unpackMap sizes d).bind fun r => unchunkLeaves (.dict (.cons marker (.prim p) (.cons (.str s) (.prim q) r))) := by
    intro d
    simp only [marker, restore, unpack, unpackMap, Option.bind_some]
    cases unpackMap sizes d <;> rfl
  rw [h3]
  simp only [unpackMap, Option.bind_some, unchunkLeaves, Dict.get, if_true, Option.isSome_some, unchunk, if_neg h1, if_neg h2, Option.bind_none]

/-! ### Instances -/

def exSizes (n : List Char) : Option Nat := if n = "int16".toList then some 2 else none

def exArr (shape : List Nat) (elems : List (List Nat)) : Arr := ⟨"int16".toList, 2, false, false, shape, elems⟩

/-- A tree with an array that is cut into chunks and one inside a tuple. -/
def exTree : Tree :=
  .dict (.cons (.str ['w']) (.arr true (exArr [1, 3] [[1, 0], [2, 0], [3, 1]]))
    (.cons (.str ['t']) (.tuple (.cons (.arr true (exArr [1] [[7, 7]])) (.cons (.prim .none) .nil))) .nil))

theorem exArr_plain {shape elems} (h1 : elems.length = count shape) (h2 : ∀ e ∈ elems, e.length = 2) : Plain exSizes (exArr shape elems) :=
  ⟨rfl, Nat.two_pos, rfl, rfl, h1, h2⟩

theorem exTree_arrays : Arrays exSizes exTree := by
  simp only [exTree, Arrays, ArraysDict, ArraysSeq, and_true]
  exact ⟨exArr_plain rfl (by decide), exArr_plain rfl (by decide)⟩

theorem exTree_keys : Keys exTree := by
  simp only [exTree, Keys, KeysDict, KeysSeq, true_and, and_true]
  exact ⟨⟨_, rfl, by decide⟩, _, rfl, by decide⟩

theorem C93_nonvacuous : Arrays exSizes exTree ∧ Keys exTree ∧ SmallInside 4 exTree ∧ ¬ Small 4 exTree ∧
    (∃ w, serialize 4 4 exTree = some w ∧ restore exSizes w = some (numpy exTree)) ∧ numpy exTree ≠ exTree := by
  have hs : SmallInside 4 exTree := by
    simp [exTree, SmallInside, SmallInsideDict, Small, SmallSeq, exArr, bytes]
  refine ⟨exTree_arrays, exTree_keys, hs, ?_, ?_, ?_⟩
  · simp [exTree, Small, SmallDict, exArr, bytes]
  · obtain ⟨w, hw⟩ := C93_any_size exSizes 4 4 exTree (Nat.le_refl _) exTree_arrays hs
    exact ⟨w, hw, C93_round_trip _ _ _ _ _ exTree_arrays exTree_keys hw⟩
  · simp [exTree, numpy, numpyDict]

theorem C93_findings_nonvacuous : ∃ a : Arr, Plain exSizes { a with big := false } ∧ a.big = true ∧ bytes a ≤ 4 ∧
    a.elems.map List.reverse ≠ a.elems :=
  ⟨{ exArr [2] [[1, 2], [3, 4]] with big := true }, exArr_plain rfl (by decide), rfl, by decide, by decide⟩

end Verif.Handlers.Msgpack
