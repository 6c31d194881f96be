import Verif.Handlers.CompositeMap

/-!
# Properties of the class `Composite` (C137)
-/

namespace Verif.CompositeMap

open Verif.Assoc

variable {V : Type}

/-- `c` was made with these items, which are the keyword arguments of a call: their names differ. -/
def MadeOf (names : String → Bool) (items : List (String × V)) (c : Comp V) : Prop := (items.map (·.1)).Nodup ∧ make names items = some c

/-! ### Lemmas -/

theorem take_two (k : String) : k.toList.take 2 = ['_', '_'] ↔ ['_', '_'] <+: k.toList := by
  constructor
  · intro h; rw [← h]; exact List.take_prefix _ _
  · rintro ⟨t, h⟩; rw [← h]; rfl

theorem setAttrs_none (names : String → Bool) : ∀ items : List (String × V), setAttrs names items = none ↔ ∃ p ∈ items, ['_', '_'] <+: p.1.toList
  | [] => by simp [setAttrs]
  | (k, v) :: l => by
    simp only [setAttrs, take_two]
    split
    · rename_i h; simp [h]
    · rename_i h; simp [h, setAttrs_none names l]

theorem setAttrs_some (names : String → Bool) : ∀ (items : List (String × V)) (a : List (String × V)), setAttrs names items = some a →
    a = items.filter fun p => !names p.1
  | [], a, h => by simp only [setAttrs, Option.some.injEq] at h; rw [← h]; rfl
  | (k, v) :: l, a, h => by
    simp only [setAttrs] at h
    split at h
    · cases h
    · rw [Option.map_eq_some_iff] at h
      obtain ⟨a', h1, h2⟩ := h
      rw [← h2, setAttrs_some names l a' h1]
      cases hk : names k <;> simp [hk]

theorem made_items {names : String → Bool} {items : List (String × V)} {c : Comp V} (h : MadeOf names items c) :
    c.items = items ∧ (keys c.items).Nodup ∧ (∀ p ∈ items, ¬ ['_', '_'] <+: p.1.toList) ∧ c.attrs = items.filter fun p => !names p.1 := by
  obtain ⟨hn, h⟩ := h
  simp only [make, Option.map_eq_some_iff] at h
  obtain ⟨a, h1, h2⟩ := h
  rw [← h2]
  refine ⟨rfl, hn, fun p hp hx => ?_, setAttrs_some names items a h1⟩
  rw [(setAttrs_none names items).2 ⟨p, hp, hx⟩] at h1; cases h1

theorem make_ok (names : String → Bool) (items : List (String × V)) (h : ∀ p ∈ items, ¬ ['_', '_'] <+: p.1.toList) :
    ∃ c, make names items = some c ∧ c.items = items := by
  cases hs : setAttrs names items with
  | none => obtain ⟨p, hp, hx⟩ := (setAttrs_none names items).1 hs; exact absurd hx (h p hp)
  | some a => exact ⟨⟨items, a⟩, by simp [make, hs], rfl⟩

theorem merge_spec : ∀ (b a : List (String × V)), (keys b).Nodup → (∀ k, Assoc.get (merge a b) k = (Assoc.get b k).or (Assoc.get a k)) ∧
    (∀ k, k ∈ keys (merge a b) ↔ k ∈ keys a ∨ k ∈ keys b) ∧ ((keys a).Nodup → (keys (merge a b)).Nodup)
  | [], a, _ => by simp [merge, keys]
  | (k0, v0) :: b, a, hn => by
    simp only [keys, List.map_cons, List.nodup_cons] at hn
    obtain ⟨h1, h2, h3⟩ := merge_spec b (put a k0 v0) hn.2
    have e : merge a ((k0, v0) :: b) = merge (put a k0 v0) b := rfl
    rw [e]
    refine ⟨fun k => ?_, fun k => ?_, fun h => h3 (nodup_put _ _ _ h)⟩
    · rw [h1, get_put]
      by_cases hk : k = k0
      · subst hk
        have : Assoc.get b k = none := by rw [get_eq_none_iff]; exact hn.1
        simp [Assoc.get, this]
      · simp [Assoc.get, hk, Ne.symm hk]
    · rw [h2, mem_keys_put]
      simp only [keys, List.map_cons, List.mem_cons]
      constructor
      · rintro ((h | h) | h)
        · exact .inr (.inl h)
        · exact .inl h
        · exact .inr (.inr h)
      · rintro (h | h | h)
        · exact .inl (.inr h)
        · exact .inl (.inl h)
        · exact .inr h

theorem keys_put_old (m : List (String × V)) (k : String) (v : V) (h : k ∈ keys m) : keys (put m k v) = keys m := by
  induction m with
  | nil => simp [keys] at h
  | cons p m ih =>
    simp only [put]
    split
    · rename_i hp; simp [keys, hp]
    · rename_i hp
      simp only [keys, List.map_cons, List.mem_cons] at h ⊢
      rw [show List.map Prod.fst (put m k v) = List.map Prod.fst m from ih (by
        rcases h with h | h
        · exact absurd h.symm hp
        · exact h)]

theorem keys_put_new (m : List (String × V)) (k : String) (v : V) (h : k ∉ keys m) : keys (put m k v) = keys m ++ [k] := by
  induction m with
  | nil => simp [put, keys]
  | cons p m ih =>
    simp only [keys, List.map_cons, List.mem_cons, not_or] at h
    simp only [put]
    rw [if_neg (Ne.symm h.1)]
    simp only [keys, List.map_cons, List.cons_append]
    rw [show List.map Prod.fst (put m k v) = List.map Prod.fst m ++ [k] from ih h.2]

theorem merge_keys : ∀ (b a : List (String × V)), (keys b).Nodup → keys (merge a b) = keys a ++ (keys b).filter fun k => !(keys a).contains k
  | [], a, _ => by simp [merge, keys]
  | (k0, v0) :: b, a, hn => by
    simp only [keys, List.map_cons, List.nodup_cons] at hn
    have e : merge a ((k0, v0) :: b) = merge (put a k0 v0) b := rfl
    rw [e, merge_keys b _ hn.2]
    have ec : keys ((k0, v0) :: b) = k0 :: keys b := rfl
    rw [ec]
    by_cases h : k0 ∈ keys a
    · rw [keys_put_old _ _ _ h, List.filter_cons_of_neg (by simpa using h)]
    · rw [keys_put_new _ _ _ h, List.filter_cons_of_pos (by simpa using h), List.append_assoc]
      congr 1
      simp only [List.singleton_append, List.cons.injEq, true_and]
      refine List.filter_congr fun x hx => ?_
      have : x ≠ k0 := by rintro rfl; exact hn.1 hx
      simp [this]

theorem pick_get (items : List (String × V)) : ∀ (l : List String), (∀ k ∈ l, k ∈ keys items) → keys (pick items l) = l ∧
    (l.Nodup → ∀ k, Assoc.get (pick items l) k = if k ∈ l then Assoc.get items k else none)
  | [], _ => by simp [pick, keys]
  | k0 :: l, h => by
    obtain ⟨h1, h2⟩ := pick_get items l (fun k hk => h k (List.mem_cons_of_mem _ hk))
    obtain ⟨v, hv⟩ := (mem_keys_iff items k0).1 (h k0 (by simp))
    have e : pick items (k0 :: l) = (k0, v) :: pick items l := by simp [pick, hv]
    rw [e]
    constructor
    · simp only [keys, List.map_cons]
      rw [show List.map Prod.fst (pick items l) = l from h1]
    · intro hn k
      rw [List.nodup_cons] at hn
      simp only [Assoc.get]
      by_cases hk : k0 = k
      · subst hk; simp [hv]
      · rw [if_neg hk, h2 hn.2]; simp [Ne.symm hk]

/-! ### Theorems -/

/-- C137: items are refused exactly if one of the names begins with two underscores. -/
theorem C137_refused (names : String → Bool) (items : List (String × V)) : make names items = none ↔ ∃ p ∈ items, ['_', '_'] <+: p.1.toList := by
  rw [← setAttrs_none names items]; simp [make]

/-- C137: a composite has exactly its items, in the order they were given. -/
theorem C137_items (names : String → Bool) (items : List (String × V)) (c : Comp V) (h : MadeOf names items c) :
    keysOf c = items.map (·.1) ∧ len c = items.length ∧ (∀ k v, getitem c k = some v ↔ (k, v) ∈ items) ∧
    (∀ k, has c k = true ↔ k ∈ items.map (·.1)) ∧ ∀ k d, (∀ v, (k, v) ∈ items → getD c k d = v) ∧ (k ∉ items.map (·.1) → getD c k d = d) := by
  obtain ⟨h1, h2, -, -⟩ := made_items h
  have hget : ∀ k v, getitem c k = some v ↔ (k, v) ∈ items := by
    intro k v
    rw [← h1]
    exact ⟨mem_of_get _ _ _, get_of_mem _ h2 _ _⟩
  refine ⟨by rw [keysOf, h1]; rfl, by rw [len, h1], hget, fun k => ?_, fun k d => ⟨fun v hv => ?_, fun hk => ?_⟩⟩
  · rw [has, h1, Option.isSome_iff_exists]
    exact (mem_keys_iff items k).symm
  · rw [getD, (hget k v).2 hv]
  · rw [getD]
    have : getitem c k = none := by rw [getitem, h1, get_eq_none_iff]; exact hk
    rw [this]

/-- C137: an item can be read as an attribute, unless its name is one of the class; then it can be read as an item and the attribute is that of the class. -/
theorem C137_attr (names : String → Bool) (items : List (String × V)) (c : Comp V) (h : MadeOf names items c) (k : String) (v : V) (hk : (k, v) ∈ items) :
    getitem c k = some v ∧ (names k = false → attr names c k = .value v) ∧ (names k = true → attr names c k = .member) := by
  obtain ⟨h1, h2, -, h4⟩ := made_items h
  have hg : getitem c k = some v := by rw [getitem]; exact get_of_mem _ h2 _ _ (by rw [h1]; exact hk)
  refine ⟨hg, fun hn => ?_, fun hn => ?_⟩
  rotate_left
  · have ha : Assoc.get c.attrs k = none := by
      rw [get_eq_none_iff, h4]
      intro hm
      obtain ⟨p, hp, rfl⟩ := List.mem_map.1 hm
      have := (List.mem_filter.1 hp).2
      rw [hn] at this; cases this
    simp [attr, ha, hn]
  have hnd : (keys c.attrs).Nodup := by
    rw [h4]
    have : (keys items).Nodup := h1 ▸ h2
    exact this.sublist (List.Sublist.map _ List.filter_sublist)
  have ha : Assoc.get c.attrs k = some v := get_of_mem _ hnd _ _ (by rw [h4]; simp [hk, hn])
  simp [attr, ha]

/-- C137: `a | b` has the items of both, with the values of `b` where both have one; first those of `a`, in their order, and then the others of `b`. -/
theorem C137_or (names : String → Bool) (ia ib : List (String × V)) (a b : Comp V) (ha : MadeOf names ia a) (hb : MadeOf names ib b) :
    ∃ c, or names a b = some c ∧ (∀ k, getitem c k = (getitem b k).or (getitem a k)) ∧
      keysOf c = keysOf a ++ (keysOf b).filter fun k => !has a k := by
  obtain ⟨a1, a2, a3, -⟩ := made_items ha
  obtain ⟨b1, b2, b3, -⟩ := made_items hb
  obtain ⟨h1, h2, h3⟩ := merge_spec b.items a.items b2
  obtain ⟨c, hc, hi⟩ := make_ok names (merge a.items b.items) (by
    rintro ⟨k, v⟩ hp
    have hk : k ∈ keys (merge a.items b.items) := List.mem_map.2 ⟨_, hp, rfl⟩
    rcases (h2 k).1 hk with hk | hk
    · obtain ⟨p, hq, rfl⟩ := List.mem_map.1 hk; exact a3 p (a1 ▸ hq)
    · obtain ⟨p, hq, rfl⟩ := List.mem_map.1 hk; exact b3 p (b1 ▸ hq))
  refine ⟨c, hc, fun k => by simp only [getitem, hi, h1], ?_⟩
  simp only [keysOf, hi, merge_keys _ _ b2]
  congr 1
  refine List.filter_congr fun k _ => ?_
  simp only [has]
  congr 1
  rw [Bool.eq_iff_iff, List.contains_iff_mem, mem_keys_iff, Option.isSome_iff_exists]

/-- C137: `a & b` has the items of `a`, with its values, whose names `b` has too. -/
theorem C137_and (names : String → Bool) (order : List String → List String) (ho : ∀ l, (order l).Perm l) (ia ib : List (String × V)) (a b : Comp V)
    (ha : MadeOf names ia a) (_hb : MadeOf names ib b) :
    ∃ c, and names order a b = some c ∧ (∀ k, getitem c k = if has b k then getitem a k else none) ∧
      (keysOf c).Perm ((keysOf a).filter fun k => has b k) := by
  obtain ⟨a1, a2, a3, -⟩ := made_items ha
  have hp := ho ((keys a.items).filter fun k => (keys b.items).contains k)
  have hmem : ∀ k, k ∈ order ((keys a.items).filter fun k => (keys b.items).contains k) ↔ k ∈ keys a.items ∧ k ∈ keys b.items := by
    intro k; rw [hp.mem_iff]; simp
  obtain ⟨h1, h2⟩ := pick_get a.items _ (fun k hk => ((hmem k).1 hk).1)
  have hnd := hp.nodup_iff.2 (a2.sublist List.filter_sublist)
  obtain ⟨c, hc, hi⟩ := make_ok names (pick a.items (order ((keys a.items).filter fun k => (keys b.items).contains k))) (by
    rintro ⟨k, v⟩ hq
    have hk : k ∈ keys (pick a.items (order ((keys a.items).filter fun k => (keys b.items).contains k))) := List.mem_map.2 ⟨_, hq, rfl⟩
    rw [h1] at hk
    obtain ⟨p, hp, rfl⟩ := List.mem_map.1 ((hmem k).1 hk).1
    exact a3 p (a1 ▸ hp))
  have hb' : ∀ k, has b k = true ↔ k ∈ keys b.items := by intro k; rw [has, Option.isSome_iff_exists, mem_keys_iff]
  refine ⟨c, hc, fun k => ?_, ?_⟩
  · simp only [getitem, hi]
    rw [h2 hnd]
    by_cases hk : has b k = true
    · rw [if_pos hk]
      by_cases hka : k ∈ keys a.items
      · rw [if_pos ((hmem k).2 ⟨hka, (hb' k).1 hk⟩)]
      · rw [if_neg (fun h => hka ((hmem k).1 h).1), (get_eq_none_iff a.items k).2 hka]
    · rw [if_neg hk, if_neg (fun h => hk ((hb' k).2 ((hmem k).1 h).2))]
  · simp only [keysOf, hi, h1]
    refine hp.trans (List.Perm.of_eq (List.filter_congr fun k _ => ?_))
    rw [Bool.eq_iff_iff, hb', List.contains_iff_mem]

/-- C137: a dictionary may stand for the second composite: it counts as the composite with its items. -/
theorem C137_dict (names : String → Bool) (order : List String → List String) (a b : Comp V) (ib : List (String × V)) (hb : MadeOf names ib b) :
    orDict names a ib = or names a b ∧ andDict names order a ib = and names order a b := by
  simp [orDict, andDict, hb.2]

/-! ### Findings -/

/-- C137 (finding): reading an attribute that does not exist raises a `KeyError` instead of an `AttributeError`, so that `hasattr(composite, name)` raises
instead of being false. -/
theorem C137_attribute_fails (names : String → Bool) (items : List (String × V)) (c : Comp V) (h : MadeOf names items c) (k : String) (hn : names k = false)
    (hk : k ∉ items.map (·.1)) : attr names c k = .keyError := by
  obtain ⟨h1, h2, -, h4⟩ := made_items h
  have ha : Assoc.get c.attrs k = none := by
    rw [get_eq_none_iff, h4]
    intro hm
    obtain ⟨p, hp, rfl⟩ := List.mem_map.1 hm
    exact hk (List.mem_map.2 ⟨p, (List.mem_filter.1 hp).1, rfl⟩)
  have hg : getitem c k = none := by rw [getitem, h1, get_eq_none_iff]; exact hk
  simp [attr, hn, ha, hg]

/-- C137 (finding): the order of the items of `a & b` is that of a set of strings, which differs between processes: with two common items, both orders occur. -/
theorem C137_order_fails (names : String → Bool) (j k : String) (v w : V) (hj : ¬ ['_', '_'] <+: j.toList) (hk : ¬ ['_', '_'] <+: k.toList) (hne : j ≠ k) :
    ∃ a, MadeOf names [(j, v), (k, w)] a ∧ (and names id a a).map keysOf = some [j, k] ∧ (and names List.reverse a a).map keysOf = some [k, j] := by
  obtain ⟨a, h1, h2⟩ := make_ok names [(j, v), (k, w)] (by simp [hj, hk])
  obtain ⟨c, c1, c2⟩ := make_ok names [(k, w), (j, v)] (by simp [hj, hk])
  refine ⟨a, ⟨by simp [hne], h1⟩, ?_, ?_⟩
  · have : pick a.items (id ((keys a.items).filter fun x => (keys a.items).contains x)) = [(j, v), (k, w)] := by
      simp [h2, keys, pick, Assoc.get, hne]
    rw [and, this, h1]; simp [keysOf, h2, keys]
  · have : pick a.items (List.reverse ((keys a.items).filter fun x => (keys a.items).contains x)) = [(k, w), (j, v)] := by
      simp [h2, keys, pick, Assoc.get, hne]
    rw [and, this, c1]; simp [keysOf, c2, keys]

/-! ### Non-vacuity -/

/-- C137: the hypotheses are met: items with a plain name and with the name of a method, a union and an intersection. -/
theorem C137_nonvacuous :
    let names : String → Bool := fun k => k = "keys" || k = "_items"
    ∃ a b : Comp Nat, MadeOf names [("state", 1), ("keys", 2)] a ∧ MadeOf names [("keys", 3), ("data", 4)] b ∧
      attr names a "state" = .value 1 ∧ attr names a "keys" = .member ∧ getitem a "keys" = some 2 ∧
      (or names a b).map (·.items) = some [("state", 1), ("keys", 3), ("data", 4)] ∧ (and names id a b).map (·.items) = some [("keys", 2)] ∧
      (make names [("__x", 0)]).isNone = true := by
  refine ⟨⟨[("state", 1), ("keys", 2)], [("state", 1)]⟩, ⟨[("keys", 3), ("data", 4)], [("data", 4)]⟩, ⟨by decide, rfl⟩, ⟨by decide, rfl⟩, rfl, rfl, rfl, ?_, ?_, ?_⟩
  all_goals decide

end Verif.CompositeMap
