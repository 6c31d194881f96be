import Verif.Handlers.LeafRegistry
import Verif.Handlers.TypeRegistryProps

/-! Properties of the registry of leaf handlers (C95). -/

namespace Verif.LeafRegistry

variable {T A H : Type}

/-! ### Specification -/

/-- A relation like `issubclass`. -/
structure Order {X : Type} (s : X → X → Bool) : Prop where
  refl : ∀ x, s x x = true
  trans : ∀ x y z, s x y = true → s y z = true → s x z = true
  antisymm : ∀ x y, s x y = true → s y x = true → x = y

/-- A leaf type, an abstract type and a handler are registered together. -/
def Registered (r : List (Entry T A H)) (t : T) (a : A) (h : H) : Prop := ∃ e ∈ r, e.leaf = t ∧ e.abs = a ∧ e.handler = h

variable [DecidableEq T] [DecidableEq A] [DecidableEq H] {c : Classes T A H}

/-- A registry made by any calls of `add`. -/
def Made (c : Classes T A H) (r : List (Entry T A H)) : Prop := ∃ calls, r = addAll c [] calls

/-! ### Sorting -/

theorem insert_perm {le} (x : Entry T A H) : ∀ l, (insert le x l).Perm (x :: l)
  | [] => List.Perm.refl _
  | y :: l => by
    simp only [insert]
    split
    · exact List.Perm.refl _
    · exact ((insert_perm x l).cons y).trans (List.Perm.swap x y l)

theorem sort_perm {le} : ∀ l : List (Entry T A H), (sort le l).Perm l
  | [] => List.Perm.refl _
  | x :: l => (insert_perm x _).trans ((sort_perm l).cons x)

theorem insert_pairwise {le : Entry T A H → Entry T A H → Bool} {R : Entry T A H → Entry T A H → Prop} (h1 : ∀ x y, le x y = true → R x y)
    (h2 : ∀ x y, le x y = false → R y x) (ht : ∀ x y z, R x y → R y z → R x z) (x : Entry T A H) :
    ∀ l, l.Pairwise R → (insert le x l).Pairwise R
  | [], _ => by simp [insert]
  | y :: l, h => by
    simp only [insert]
    rw [List.pairwise_cons] at h
    split
    · rename_i hle
      refine List.pairwise_cons.2 ⟨?_, List.pairwise_cons.2 h⟩
      intro z hz
      rcases List.mem_cons.1 hz with rfl | hz
      · exact h1 _ _ hle
      · exact ht _ _ _ (h1 _ _ hle) (h.1 z hz)
    · rename_i hle
      refine List.pairwise_cons.2 ⟨?_, insert_pairwise h1 h2 ht x l h.2⟩
      intro z hz
      rcases List.mem_cons.1 ((insert_perm x l).mem_iff.1 hz) with rfl | hz
      · exact h2 _ _ (by simpa using hle)
      · exact h.1 z hz

theorem sort_pairwise {le : Entry T A H → Entry T A H → Bool} {R : Entry T A H → Entry T A H → Prop} (h1 : ∀ x y, le x y = true → R x y)
    (h2 : ∀ x y, le x y = false → R y x) (ht : ∀ x y z, R x y → R y z → R x z) : ∀ l, (sort le l).Pairwise R
  | [] => List.Pairwise.nil
  | x :: l => insert_pairwise h1 h2 ht x _ (sort_pairwise h1 h2 ht l)

/-! ### Invariant -/

structure Inv (c : Classes T A H) (r : List (Entry T A H)) : Prop where
  leafScore : ∀ e ∈ r, e.leafScore = r.countP fun o => e.leaf ≠ o.leaf && c.sub e.leaf o.leaf
  absScore : ∀ e ∈ r, e.absScore = r.countP fun o => e.abs ≠ o.abs && c.asub e.abs o.abs
  sorted : r.Pairwise fun x y => x.leafScore ≤ y.leafScore
  unique : ∀ x ∈ r, ∀ y ∈ r, x.leaf = y.leaf → x = y
  nodup : (r.map (·.leaf)).Nodup
  agree : ∀ x ∈ r, ∀ y ∈ r, x.abs = y.abs → x.handler = y.handler

theorem nodup_unique : ∀ {r : List (Entry T A H)}, (r.map (·.leaf)).Nodup → ∀ x ∈ r, ∀ y ∈ r, x.leaf = y.leaf → x = y
  | [], _, x, hx => by cases hx
  | e :: r, h, x, hx => by
    intro y hy hxy
    rw [List.map_cons, List.nodup_cons] at h
    rcases List.mem_cons.1 hx with hx1 | hx1 <;> rcases List.mem_cons.1 hy with hy1 | hy1
    · rw [hx1, hy1]
    · exact absurd (List.mem_map.2 ⟨y, hy1, by rw [← hxy, hx1]⟩) h.1
    · exact absurd (List.mem_map.2 ⟨x, hx1, by rw [hxy, hy1]⟩) h.1
    · exact nodup_unique h.2 x hx1 y hy1 hxy

theorem keyLe_true (x y : Entry T A H) (h : keyLe c x y = true) : x.leafScore ≤ y.leafScore := by
  simp [keyLe] at h; omega

theorem keyLe_false (x y : Entry T A H) (h : keyLe c x y = false) : y.leafScore ≤ x.leafScore := by
  simp [keyLe] at h; omega

theorem rescore_leafs (l : List (Entry T A H)) : (rescore c l).map (·.leaf) = l.map (·.leaf) := by
  simp [rescore, Function.comp_def]

theorem rescore_count_leaf (l : List (Entry T A H)) (t : T) :
    (rescore c l).countP (fun o => t ≠ o.leaf && c.sub t o.leaf) = l.countP fun o => t ≠ o.leaf && c.sub t o.leaf := by
  rw [rescore, List.countP_map]; rfl

theorem rescore_count_abs (l : List (Entry T A H)) (a : A) :
    (rescore c l).countP (fun o => a ≠ o.abs && c.asub a o.abs) = l.countP fun o => a ≠ o.abs && c.asub a o.abs := by
  rw [rescore, List.countP_map]; rfl

theorem mem_rescore {l : List (Entry T A H)} {e} (h : e ∈ rescore c l) : ∃ o ∈ l, e.leaf = o.leaf ∧ e.abs = o.abs ∧ e.handler = o.handler := by
  obtain ⟨o, ho, rfl⟩ := List.mem_map.1 h
  exact ⟨o, ho, rfl, rfl, rfl⟩

theorem registered_add {r r' : List (Entry T A H)} {t a h o s} (ha : add c r t a h o s = some r') (t' : T) (a' : A) (h' : H) :
    Registered r' t' a' h' ↔ (t' = t ∧ a' = a ∧ h' = h) ∨
      (Registered r t' a' h' ∧ (Registered r t a h ∨ ¬ (t' = t ∨ (a' = a ∧ h' ≠ h)))) := by
  simp only [add] at ha
  split at ha
  · rename_i hd
    rw [List.any_eq_true] at hd
    obtain ⟨e, he, hd⟩ := hd
    simp only [Bool.and_eq_true, decide_eq_true_eq] at hd
    have hreg : Registered r t a h := ⟨e, he, hd.1.1, hd.1.2, hd.2⟩
    have hsame : Registered r' t' a' h' ↔ Registered r t' a' h' := by
      cases ha
      split
      · constructor
        · rintro ⟨x, hx, h1⟩
          obtain ⟨y, hy, rfl⟩ := List.mem_map.1 hx
          refine ⟨y, hy, ?_⟩
          split at h1 <;> exact h1
        · rintro ⟨x, hx, h1⟩
          refine ⟨_, List.mem_map.2 ⟨x, hx, rfl⟩, ?_⟩
          split <;> exact h1
      · exact Iff.rfl
    rw [hsame]
    constructor
    · intro h1; exact Or.inr ⟨h1, Or.inl hreg⟩
    · rintro (⟨rfl, rfl, rfl⟩ | h1)
      · exact hreg
      · exact h1.1
  · rename_i hd
    have hnreg : ¬ Registered r t a h := by
      rintro ⟨e, he, h1, h2, h3⟩
      exact hd (List.any_eq_true.2 ⟨e, he, by simp [h1, h2, h3]⟩)
    split at ha
    · cases ha
    · cases ha
      simp only [Registered, (sort_perm _).mem_iff]
      constructor
      · rintro ⟨e, he, rfl, rfl, rfl⟩
        obtain ⟨x, hx, h1, h2, h3⟩ := mem_rescore he
        rcases List.mem_append.1 hx with hx | hx
        · rw [List.mem_filter] at hx
          refine Or.inr ⟨⟨x, hx.1, h1.symm, h2.symm, h3.symm⟩, Or.inr ?_⟩
          have := hx.2
          simp only [conflict, Bool.not_eq_true', Bool.or_eq_false_iff, decide_eq_false_iff_not, Bool.and_eq_false_iff] at this
          rw [h1, h2, h3]
          rintro (h4 | ⟨h4, h5⟩)
          · exact this.1 h4
          · rcases this.2 with h6 | h6
            · exact h6 h4
            · exact h6 h5
        · rw [List.mem_singleton] at hx
          subst hx
          exact Or.inl ⟨h1, h2, h3⟩
      · rintro (⟨rfl, rfl, rfl⟩ | ⟨⟨x, hx, h1, h2, h3⟩, h4⟩)
        · exact ⟨_, List.mem_map.2 ⟨⟨t', a', h', s, 0, 0⟩, List.mem_append_right _ List.mem_cons_self, rfl⟩, rfl, rfl, rfl⟩
        · have h4 := h4.resolve_left hnreg
          refine ⟨_, List.mem_map.2 ⟨x, List.mem_append_left _ (List.mem_filter.2 ⟨hx, ?_⟩), rfl⟩, h1, h2, h3⟩
          simp only [conflict, Bool.not_eq_true', Bool.or_eq_false_iff, decide_eq_false_iff_not, Bool.and_eq_false_iff]
          rw [h1, h2, h3]
          refine ⟨fun h5 => h4 (Or.inl h5), ?_⟩
          by_cases h5 : a' = a
          · exact Or.inr fun h6 => h4 (Or.inr ⟨h5, h6⟩)
          · exact Or.inl h5

theorem inv_empty : Inv c ([] : List (Entry T A H)) :=
  ⟨(by intro e he; cases he), (by intro e he; cases he), List.Pairwise.nil, (by intro e he; cases he), List.nodup_nil, (by intro e he; cases he)⟩

theorem inv_map {r : List (Entry T A H)} (hi : Inv c r) (f : Entry T A H → Entry T A H)
    (hf : ∀ e, (f e).leaf = e.leaf ∧ (f e).abs = e.abs ∧ (f e).handler = e.handler ∧ (f e).leafScore = e.leafScore ∧
      (f e).absScore = e.absScore) : Inv c (r.map f) := by
  have hnd : ((r.map f).map (·.leaf)).Nodup := by
    rw [List.map_map]
    have : (fun x : Entry T A H => x.leaf) ∘ f = fun x => x.leaf := funext fun e => (hf e).1
    rw [this]; exact hi.nodup
  refine ⟨?_, ?_, ?_, nodup_unique hnd, hnd, ?_⟩
  · intro e he
    obtain ⟨x, hx, rfl⟩ := List.mem_map.1 he
    rw [(hf x).2.2.2.1, hi.leafScore x hx, List.countP_map]
    refine List.countP_congr fun o _ => ?_
    simp [Function.comp, (hf x).1, (hf o).1]
  · intro e he
    obtain ⟨x, hx, rfl⟩ := List.mem_map.1 he
    rw [(hf x).2.2.2.2, hi.absScore x hx, List.countP_map]
    refine List.countP_congr fun o _ => ?_
    simp [Function.comp, (hf x).2.1, (hf o).2.1]
  · rw [List.pairwise_map]
    refine hi.sorted.imp ?_
    intro x y hxy
    rw [(hf x).2.2.2.1, (hf y).2.2.2.1]; exact hxy
  · intro x hx y hy hxy
    obtain ⟨x', hx', rfl⟩ := List.mem_map.1 hx
    obtain ⟨y', hy', rfl⟩ := List.mem_map.1 hy
    rw [(hf x').2.1, (hf y').2.1] at hxy
    rw [(hf x').2.2.1, (hf y').2.2.1]
    exact hi.agree x' hx' y' hy' hxy

theorem inv_add {r r' : List (Entry T A H)} {t a h o s} (hi : Inv c r) (ha : add c r t a h o s = some r') : Inv c r' := by
  simp only [add] at ha
  split at ha
  · cases ha
    split
    · exact inv_map hi _ fun e => by split <;> exact ⟨rfl, rfl, rfl, rfl, rfl⟩
    · exact hi
  · split at ha
    · cases ha
    · cases ha
      have hp := sort_perm (le := keyLe c) (rescore c ((r.filter fun e => !conflict t a h e) ++ [⟨t, a, h, s, 0, 0⟩]))
      have hnd : ((sort (keyLe c) (rescore c ((r.filter fun e => !conflict t a h e) ++ [⟨t, a, h, s, 0, 0⟩]))).map (·.leaf)).Nodup := by
        rw [(hp.map (·.leaf)).nodup_iff, rescore_leafs, List.map_append, List.nodup_append]
        refine ⟨List.Nodup.sublist (List.filter_sublist.map _) hi.nodup, by simp, ?_⟩
        intro x hx y hy hxy
        obtain ⟨e, he, rfl⟩ := List.mem_map.1 hx
        simp only [List.map_cons, List.map_nil, List.mem_singleton] at hy
        have := (List.mem_filter.1 he).2
        simp only [conflict, Bool.not_eq_true', Bool.or_eq_false_iff, decide_eq_false_iff_not] at this
        exact this.1 (hxy.trans hy)
      refine ⟨?_, ?_, sort_pairwise keyLe_true keyLe_false (fun _ _ _ => Nat.le_trans) _, nodup_unique hnd, hnd, ?_⟩
      · intro e he
        rw [hp.countP_eq, rescore_count_leaf]
        obtain ⟨x, hx, rfl⟩ := List.mem_map.1 (hp.mem_iff.1 he)
        rfl
      · intro e he
        rw [hp.countP_eq, rescore_count_abs]
        obtain ⟨x, hx, rfl⟩ := List.mem_map.1 (hp.mem_iff.1 he)
        rfl
      · intro x hx y hy hxy
        obtain ⟨x', hx', -, hxa, hxh⟩ := mem_rescore (hp.mem_iff.1 hx)
        obtain ⟨y', hy', -, hya, hyh⟩ := mem_rescore (hp.mem_iff.1 hy)
        rw [hxa, hya] at hxy
        rw [hxh, hyh]
        have hnew : ∀ z ∈ r.filter (fun e => !conflict t a h e), z.abs = a → z.handler = h := by
          intro z hz hza
          have := (List.mem_filter.1 hz).2
          simp only [conflict, Bool.not_eq_true', Bool.or_eq_false_iff, decide_eq_false_iff_not, Bool.and_eq_false_iff] at this
          rcases this.2 with h6 | h6
          · exact absurd hza h6
          · exact Decidable.byContradiction h6
        rcases List.mem_append.1 hx' with hx' | hx' <;> rcases List.mem_append.1 hy' with hy' | hy'
        · exact hi.agree x' (List.mem_filter.1 hx').1 y' (List.mem_filter.1 hy').1 hxy
        · rw [List.mem_singleton] at hy'; subst hy'
          exact hnew x' hx' hxy
        · rw [List.mem_singleton] at hx'; subst hx'
          exact (hnew y' hy' hxy.symm).symm
        · rw [List.mem_singleton] at hx' hy'; subst hx' hy'; rfl

theorem inv_addAll : ∀ (l : List (Call T A H)) (r : List (Entry T A H)), Inv c r → Inv c (addAll c r l)
  | [], _, h => h
  | x :: l, r, h => by
    refine inv_addAll l _ ?_
    cases ha : add c r x.leaf x.abs x.handler x.override x.typestrs with
    | none => exact h
    | some r' => exact inv_add h ha

theorem made_inv {r : List (Entry T A H)} (hm : Made c r) : Inv c r := by
  obtain ⟨l, rfl⟩ := hm; exact inv_addAll l _ inv_empty

/-! ### Resolution -/

theorem find_last {p : Entry T A H → Bool} {R : Entry T A H → Entry T A H → Prop} (hR : ∀ x, R x x) :
    ∀ {l : List (Entry T A H)} {e}, l.Pairwise R → l.reverse.find? p = some e → e ∈ l ∧ p e = true ∧ ∀ x ∈ l, p x = true → R x e := by
  intro l
  induction l with
  | nil => intro e _ h; simp at h
  | cons y l ih =>
    intro e hl h
    rw [List.pairwise_cons] at hl
    rw [List.reverse_cons, List.find?_append] at h
    cases hf : l.reverse.find? p with
    | some e' =>
      rw [hf] at h
      cases h
      obtain ⟨h1, h2, h3⟩ := ih hl.2 hf
      refine ⟨List.mem_cons_of_mem _ h1, h2, ?_⟩
      intro x hx hpx
      rcases List.mem_cons.1 hx with rfl | hx
      · exact hl.1 _ h1
      · exact h3 x hx hpx
    | none =>
      rw [hf] at h
      simp only [Option.none_or, List.find?_cons, List.find?_nil] at h
      split at h
      · rename_i hpy
        cases h
        refine ⟨List.mem_cons_self, hpy, ?_⟩
        intro x hx hpx
        rcases List.mem_cons.1 hx with rfl | hx
        · exact hR _
        · rw [List.find?_eq_none] at hf
          exact absurd hpx (hf x (List.mem_reverse.2 hx))
      · cases h

theorem countP_lt {X : Type} {p q : X → Bool} : ∀ {l : List X}, (∀ x ∈ l, p x = true → q x = true) → (∃ x ∈ l, q x = true ∧ p x = false) →
    l.countP p < l.countP q
  | [], _, h => by obtain ⟨_, h, _⟩ := h; cases h
  | y :: l, himp, h => by
    have hle : l.countP p ≤ l.countP q := List.countP_mono_left fun x hx => himp x (List.mem_cons_of_mem _ hx)
    simp only [List.countP_cons]
    obtain ⟨x, hx, hq, hp⟩ := h
    rcases List.mem_cons.1 hx with rfl | hx
    · simp [hq, hp]; omega
    · have ih := countP_lt (fun x hx => himp x (List.mem_cons_of_mem _ hx)) ⟨x, hx, hq, hp⟩
      have := himp y List.mem_cons_self
      cases hpy : p y
      · simp; omega
      · simp [this hpy]; omega

omit [DecidableEq T] [DecidableEq A] [DecidableEq H] in
/-- More specific types have higher scores. -/
theorem score_lt {X : Type} [DecidableEq X] {s : X → X → Bool} (hs : Order s) {l : List (Entry T A H)} {f : Entry T A H → X} {e e' : Entry T A H}
    (he : e ∈ l) (h : s (f e') (f e) = true) (hne : f e' ≠ f e) :
    (l.countP fun o => f e ≠ f o && s (f e) (f o)) < l.countP fun o => f e' ≠ f o && s (f e') (f o) := by
  refine countP_lt ?_ ⟨e, he, by simp [h, hne], by simp⟩
  intro o _ ho
  simp only [Bool.and_eq_true, decide_eq_true_eq] at ho ⊢
  refine ⟨?_, hs.trans _ _ _ h ho.2⟩
  intro heq
  exact hne (hs.antisymm _ _ h (heq ▸ ho.2))

theorem get_some {r : List (Entry T A H)} (hs : Order c.sub) (hm : Made c r) {t : T} {h : H} (hg : get c r t = some h) :
    ∃ e ∈ r, e.handler = h ∧ c.sub t e.leaf = true ∧ ∀ e' ∈ r, c.sub t e'.leaf = true → c.sub e'.leaf e.leaf = true → e'.leaf = e.leaf := by
  have hi := made_inv hm
  simp only [get, Option.map_eq_some_iff] at hg
  obtain ⟨e, he, rfl⟩ := hg
  obtain ⟨h1, h2, h3⟩ := find_last (R := fun x y => x.leafScore ≤ y.leafScore) (fun _ => Nat.le_refl _) hi.sorted he
  refine ⟨e, h1, rfl, h2, ?_⟩
  intro e' he' ht hsub
  refine Decidable.byContradiction fun hne => ?_
  have hlt := score_lt hs (f := fun e : Entry T A H => e.leaf) h1 hsub hne
  have hle := h3 e' he' ht
  rw [hi.leafScore e h1, hi.leafScore e' he'] at hle
  exact absurd hlt (Nat.not_lt.2 hle)

theorem getAbstract_some {r : List (Entry T A H)} (hs : Order c.asub) (hm : Made c r) {a : A} {h : H} (hg : getAbstract c r a = some h) :
    ∃ e ∈ r, e.handler = h ∧ c.asub a e.abs = true ∧ ∀ e' ∈ r, c.asub a e'.abs = true → c.asub e'.abs e.abs = true → e'.abs = e.abs := by
  have hi := made_inv hm
  simp only [getAbstract, Option.map_eq_some_iff] at hg
  obtain ⟨e, he, rfl⟩ := hg
  have hp := sort_perm (le := fun x y : Entry T A H => decide (x.absScore ≤ y.absScore)) r
  obtain ⟨h1, h2, h3⟩ := find_last (R := fun x y => x.absScore ≤ y.absScore) (fun _ => Nat.le_refl _)
    (sort_pairwise (le := fun x y : Entry T A H => decide (x.absScore ≤ y.absScore)) (fun x y h => of_decide_eq_true h)
      (fun x y h => Nat.le_of_lt (Nat.lt_of_not_le (of_decide_eq_false h))) (fun _ _ _ => Nat.le_trans) r) he
  have h1 := hp.mem_iff.1 h1
  refine ⟨e, h1, rfl, h2, ?_⟩
  intro e' he' ht hsub
  refine Decidable.byContradiction fun hne => ?_
  have hlt := score_lt hs (f := fun e : Entry T A H => e.abs) h1 hsub hne
  have hle := h3 e' (hp.mem_iff.2 he') ht
  rw [hi.absScore e h1, hi.absScore e' he'] at hle
  exact absurd hlt (Nat.not_lt.2 hle)

/-- C95: the handler found for a type is registered for one of its base classes, and no other base class with a handler is
more specific; a type without a registered base class has none. -/
theorem C95_most_specific {r : List (Entry T A H)} (hs : Order c.sub) (hm : Made c r) (t : T) :
    (∀ h, get c r t = some h → ∃ b a, Registered r b a h ∧ c.sub t b = true ∧
      ∀ b' a' h', Registered r b' a' h' → c.sub t b' = true → c.sub b' b = true → b' = b) ∧
    (get c r t = none ↔ ∀ b a h, Registered r b a h → c.sub t b = false) := by
  refine ⟨?_, ?_⟩
  · intro h hg
    obtain ⟨e, he, h1, h2, h3⟩ := get_some hs hm hg
    refine ⟨e.leaf, e.abs, ⟨e, he, rfl, rfl, h1⟩, h2, ?_⟩
    rintro b' a' h' ⟨e', he', rfl, rfl, rfl⟩ h4 h5
    exact h3 e' he' h4 h5
  · simp only [get, Option.map_eq_none_iff, List.find?_eq_none, List.mem_reverse, Bool.not_eq_true]
    constructor
    · rintro h b a h' ⟨e, he, rfl, rfl, rfl⟩; exact h e he
    · intro h e he; exact h _ _ _ ⟨e, he, rfl, rfl, rfl⟩

/-- C95: the same for abstract types. -/
theorem C95_abstract_most_specific {r : List (Entry T A H)} (hs : Order c.asub) (hm : Made c r) (a : A) :
    (∀ h, getAbstract c r a = some h → ∃ b t, Registered r t b h ∧ c.asub a b = true ∧
      ∀ b' t' h', Registered r t' b' h' → c.asub a b' = true → c.asub b' b = true → b' = b) ∧
    (getAbstract c r a = none ↔ ∀ b t h, Registered r t b h → c.asub a b = false) := by
  refine ⟨?_, ?_⟩
  · intro h hg
    obtain ⟨e, he, h1, h2, h3⟩ := getAbstract_some hs hm hg
    refine ⟨e.abs, e.leaf, ⟨e, he, rfl, rfl, h1⟩, h2, ?_⟩
    rintro b' a' h' ⟨e', he', rfl, rfl, rfl⟩ h4 h5
    exact h3 e' he' h4 h5
  · simp only [getAbstract, Option.map_eq_none_iff, List.find?_eq_none, List.mem_reverse, Bool.not_eq_true, (sort_perm _).mem_iff]
    constructor
    · rintro h b a h' ⟨e, he, rfl, rfl, rfl⟩; exact h e he
    · intro h e he; exact h _ _ _ ⟨e, he, rfl, rfl, rfl⟩

/-- C95: a registered leaf type and a registered abstract type get the handler they are registered with, whatever else is
registered and in whatever order: what saves a leaf is what loads it by its abstract type. -/
theorem C95_exact {r : List (Entry T A H)} (hs : Order c.sub) (ha : Order c.asub) (hm : Made c r) (t : T) (a : A) (h : H)
    (hr : Registered r t a h) : get c r t = some h ∧ getAbstract c r a = some h := by
  have hi := made_inv hm
  refine ⟨?_, ?_⟩
  · cases hg : get c r t with
    | none =>
      have := ((C95_most_specific hs hm t).2.1 hg) t a h hr
      rw [hs.refl] at this; cases this
    | some h' =>
      obtain ⟨e, he, h1, h2, h3⟩ := get_some hs hm hg
      obtain ⟨x, hx, rfl, rfl, rfl⟩ := hr
      have := h3 x hx (hs.refl _) h2
      rw [hi.unique x hx e he this, h1]
  · cases hg : getAbstract c r a with
    | none =>
      have := ((C95_abstract_most_specific ha hm a).2.1 hg) a t h hr
      rw [ha.refl] at this; cases this
    | some h' =>
      obtain ⟨e, he, h1, h2, h3⟩ := getAbstract_some ha hm hg
      obtain ⟨x, hx, rfl, rfl, rfl⟩ := hr
      have := h3 x hx (ha.refl _) h2
      rw [← h1, hi.agree x hx e he this]

/-- C95: two registries with the same registrations find the same handler for a type, whatever the order in which they were
made, if one of its registered base classes is more specific than all others. -/
theorem C95_order {r r' : List (Entry T A H)} (hs : Order c.sub) (hm : Made c r) (hm' : Made c r')
    (hsame : ∀ t a h, Registered r t a h ↔ Registered r' t a h) (t b : T) (a : A) (h : H) (hb : Registered r b a h) (htb : c.sub t b = true)
    (hleast : ∀ b' a' h', Registered r b' a' h' → c.sub t b' = true → c.sub b b' = true) :
    get c r t = some h ∧ get c r' t = some h := by
  have key : ∀ r, Made c r → Registered r b a h → (∀ b' a' h', Registered r b' a' h' → c.sub t b' = true → c.sub b b' = true) →
      get c r t = some h := by
    intro r hm hb hleast
    have hi := made_inv hm
    cases hg : get c r t with
    | none =>
      have := ((C95_most_specific hs hm t).2.1 hg) b a h hb
      rw [htb] at this; cases this
    | some h' =>
      obtain ⟨e, he, h1, h2, h3⟩ := get_some hs hm hg
      obtain ⟨x, hx, rfl, rfl, rfl⟩ := hb
      have := h3 x hx htb (hleast _ _ _ ⟨e, he, rfl, rfl, rfl⟩ h2)
      rw [← h1, hi.unique x hx e he this]
  exact ⟨key r hm hb hleast, key r' hm' ((hsame _ _ _).1 hb) fun b' a' h' hr => hleast b' a' h' ((hsame _ _ _).2 hr)⟩

/-- C95: `add` raises exactly if it is not told to override and the leaf type has another registration or the abstract type
another handler; otherwise the new registration is there, and those it conflicts with, and no others, are gone. -/
theorem C95_add {r : List (Entry T A H)} (hm : Made c r) (t : T) (a : A) (h : H) (o : Bool) (s : List String) :
    (add c r t a h o s = none ↔ o = false ∧ ¬ Registered r t a h ∧
      ∃ t' a' h', Registered r t' a' h' ∧ (t' = t ∨ (a' = a ∧ h' ≠ h))) ∧
    ∀ r', add c r t a h o s = some r' → Made c r' ∧ ∀ t' a' h', Registered r' t' a' h' ↔
      (t' = t ∧ a' = a ∧ h' = h) ∨ (Registered r t' a' h' ∧ ¬ (t' = t ∨ (a' = a ∧ h' ≠ h))) := by
  have hi := made_inv hm
  refine ⟨?_, ?_⟩
  · have hany : (r.any fun e => e.leaf = t && e.abs = a && e.handler = h) = true ↔ Registered r t a h := by
      rw [List.any_eq_true]
      constructor
      · rintro ⟨e, he, h1⟩
        simp only [Bool.and_eq_true, decide_eq_true_eq] at h1
        exact ⟨e, he, h1.1.1, h1.1.2, h1.2⟩
      · rintro ⟨e, he, h1, h2, h3⟩
        exact ⟨e, he, by simp [h1, h2, h3]⟩
    have hcon : r.any (conflict t a h) = true ↔ ∃ t' a' h', Registered r t' a' h' ∧ (t' = t ∨ (a' = a ∧ h' ≠ h)) := by
      rw [List.any_eq_true]
      constructor
      · rintro ⟨e, he, h1⟩
        simp only [conflict, Bool.or_eq_true, Bool.and_eq_true, decide_eq_true_eq] at h1
        exact ⟨_, _, _, ⟨e, he, rfl, rfl, rfl⟩, h1⟩
      · rintro ⟨t', a', h', ⟨e, he, rfl, rfl, rfl⟩, h1⟩
        exact ⟨e, he, by simpa [conflict] using h1⟩
    simp only [add]
    by_cases h1 : Registered r t a h
    · rw [if_pos (hany.2 h1)]
      simp [h1]
    · rw [if_neg fun h2 => h1 (hany.1 h2)]
      by_cases h2 : r.any (conflict t a h) = true
      · have h3 := hcon.1 h2
        cases o <;> simp [h1, h2, h3]
      · have h3 := fun h3 => h2 (hcon.2 h3)
        simp only [Bool.not_eq_true] at h2
        constructor
        · intro h4; rw [if_neg (by simp [h2])] at h4; cases h4
        · intro h4; exact absurd h4.2.2 h3
  · intro r' hr'
    refine ⟨?_, ?_⟩
    · obtain ⟨l, rfl⟩ := hm
      refine ⟨l ++ [⟨t, a, h, o, s⟩], ?_⟩
      have happ : ∀ (l : List (Call T A H)) (r0 : List (Entry T A H)) (x : Call T A H), addAll c r0 (l ++ [x]) =
          (add c (addAll c r0 l) x.leaf x.abs x.handler x.override x.typestrs).getD (addAll c r0 l) := by
        intro l
        induction l with
        | nil => intro r0 x; rfl
        | cons y l ih => intro r0 x; exact ih _ x
      rw [happ, hr']; rfl
    · intro t' a' h'
      rw [registered_add hr']
      constructor
      · rintro (h1 | ⟨h1, h2 | h2⟩)
        · exact Or.inl h1
        · by_cases h3 : t' = t ∧ a' = a ∧ h' = h
          · exact Or.inl h3
          · refine Or.inr ⟨h1, ?_⟩
            obtain ⟨x, hx, rfl, rfl, rfl⟩ := h1
            obtain ⟨y, hy, rfl, rfl, rfl⟩ := h2
            rintro (h4 | ⟨h4, h5⟩)
            · have := hi.unique x hx y hy h4
              exact h3 ⟨h4, by rw [this], by rw [this]⟩
            · exact h5 (hi.agree x hx y hy h4)
        · exact Or.inr ⟨h1, h2⟩
      · rintro (h1 | ⟨h1, h2⟩)
        · exact Or.inl h1
        · exact Or.inr ⟨h1, Or.inr h2⟩

/-! ### The registry of type handlers made from it -/

theorem addAll_append {sub : T → T → Bool} {ts : H → String} : ∀ (l : List (T × H)) (q : TypeRegistry.Registry T H),
    (∀ x ∈ l, TypeRegistry.firstMatch x.1 q.entries = none) → (l.Pairwise fun x y => sub y.1 x.1 = false) →
    ∃ q', TypeRegistry.addAll sub ts q (l.map fun x => ⟨x.1, x.2, none, true⟩) = some q' ∧
      q'.entries = q.entries ++ l.map fun x => (fun u => sub u x.1, x.2)
  | [], q, _, _ => ⟨q, rfl, by simp⟩
  | x :: l, q, h, hp => by
    rw [List.pairwise_cons] at hp
    have h0 := h x List.mem_cons_self
    obtain ⟨q', h1, h2⟩ := addAll_append (sub := sub) (ts := ts) l
      ⟨q.entries ++ [(fun u => sub u x.1, x.2)], TypeRegistry.setStr q.strs (ts x.2) x.2⟩ (by
        intro y hy
        have hy0 := h y (List.mem_cons_of_mem _ hy)
        rw [TypeRegistry.firstMatch_none] at hy0 ⊢
        rw [List.find?_append, hy0]
        simp [hp.1 y hy]) hp.2
    refine ⟨q', ?_, ?_⟩
    · simp only [List.map_cons, TypeRegistry.addAll, TypeRegistry.add, h0]
      simpa [TypeRegistry.matcher] using h1
    · rw [h2]; simp

/-- C95: the registry of type handlers made from it always exists and finds the same handler for every type. -/
theorem C95_type_handlers {r : List (Entry T A H)} (hs : Order c.sub) (hm : Made c r) (own : H → String) :
    ∃ q, toV0 c own r = some q ∧ ∀ t, TypeRegistry.get q t = get c r t := by
  have hi := made_inv hm
  have hpw : ((r.reverse.map fun e => (e.leaf, e.handler)) : List (T × H)).Pairwise fun x y => c.sub y.1 x.1 = false := by
    rw [List.pairwise_map, List.pairwise_reverse]
    have hnd : r.Pairwise fun x y => x.leaf ≠ y.leaf := by
      have := hi.nodup
      rwa [List.Nodup, List.pairwise_map] at this
    have hall : ∀ {x y : Entry T A H}, [x, y].Sublist r → x.leafScore ≤ y.leafScore ∧ x.leaf ≠ y.leaf :=
      List.pairwise_iff_forall_sublist.1 (hi.sorted.and hnd)
    refine List.pairwise_iff_forall_sublist.2 fun {x y} hxy => ?_
    obtain ⟨h1, h2⟩ := hall hxy
    have hx : x ∈ r := hxy.subset (by simp)
    have hy : y ∈ r := hxy.subset (by simp)
    cases hsub : c.sub x.leaf y.leaf with
    | false => rfl
    | true =>
      have hlt := score_lt hs (f := fun e : Entry T A H => e.leaf) hy hsub h2
      rw [hi.leafScore x hx, hi.leafScore y hy] at h1
      exact absurd hlt (Nat.not_lt.2 h1)
  obtain ⟨q, h1, h2⟩ := addAll_append (sub := c.sub) (ts := typestr own r) _ {} (by simp [TypeRegistry.firstMatch]) hpw
  refine ⟨q, h1, ?_⟩
  intro t
  simp only [TypeRegistry.get, h2, get, List.nil_append, List.map_map]
  induction r.reverse with
  | nil => rfl
  | cons e l ih =>
    simp only [List.map_cons, List.find?_cons, Function.comp]
    cases c.sub t e.leaf with
    | true => rfl
    | false => exact ih

/-! ### The standard registry -/

theorem pySub_order : Order pySub :=
  ⟨(by intro x; cases x <;> rfl), (by intro x y z; cases x <;> cases y <;> cases z <;> decide),
    (by intro x y; cases x <;> cases y <;> decide)⟩

theorem pyAsub_order : Order pyAsub :=
  ⟨(by intro x; cases x <;> rfl), (by intro x y z; cases x <;> cases y <;> cases z <;> decide),
    (by intro x y; cases x <;> cases y <;> decide)⟩

theorem standard_made : Made pyClasses standard := ⟨standardCalls, rfl⟩

/-- C95: the standard registry has a handler for the types it registers and their subclasses. -/
theorem C95_standard :
    get pyClasses standard .jaxArray = some .array ∧ get pyClasses standard .ndarray = some .numpy ∧
    get pyClasses standard .int = some .scalar ∧ get pyClasses standard .bool = some .scalar ∧
    get pyClasses standard .float = some .scalar ∧ get pyClasses standard .npFloat64 = some .scalar ∧
    get pyClasses standard .bytes = some .scalar ∧ get pyClasses standard .str = some .string ∧
    getAbstract pyClasses standard .jaxArray = some .array ∧ getAbstract pyClasses standard .ndarray = some .numpy := by decide

/-- C95 (finding): NumPy numbers other than `np.float64`, which the documentation says are registered, have no handler in the
standard registry. -/
theorem C95_numpy_numbers_fails : isHandleable pyClasses standard .npInt32 = false ∧ isHandleable pyClasses standard .npFloat32 = false := by decide

/-! ### Type strings -/

/-- The standard types and a user's class of arrays. -/
inductive Mine where
  | jaxArray | ndarray | sparse
deriving DecidableEq

def mineClasses : Classes Mine Mine Handler :=
  ⟨fun a b => a = b, fun a b => a = b || (a = .jaxArray && b = .ndarray), fun | .array => 0 | .numpy => 1 | .scalar => 2 | .string => 3⟩

def mineCalls : List (Call Mine Mine Handler) :=
  [⟨.jaxArray, .jaxArray, .array, false, ["jax.Array"]⟩, ⟨.ndarray, .ndarray, .numpy, false, ["np.ndarray"]⟩]

/-- C95 (finding): registering a class of the user's with the handler for JAX arrays, without type strings of its own, changes
the type string that is written for JAX arrays. -/
theorem C95_type_string_fails (own : Handler → String) :
    typestr own (addAll mineClasses [] mineCalls) .array = "jax.Array" ∧
    (add mineClasses (addAll mineClasses [] mineCalls) .sparse .sparse .array false []).isSome = true ∧
    typestr own (addAll mineClasses [] (mineCalls ++ [⟨.sparse, .sparse, .array, false, []⟩])) .array = own .array := by
  refine ⟨?_, by decide, ?_⟩
  · have : secondary (addAll mineClasses [] mineCalls) .array = ["jax.Array"] := by decide
    simp [typestr, this]
  · have : secondary (addAll mineClasses [] (mineCalls ++ [⟨.sparse, .sparse, .array, false, []⟩])) .array = [] := by decide
    simp [typestr, this]

/-! ### Instances -/

/-- A registry with a class and a subclass, made in either order. -/
theorem C95_nonvacuous :
    Made pyClasses (addAll pyClasses [] [⟨.int, .int, .scalar, false, []⟩, ⟨.bool, .bool, .string, false, []⟩]) ∧
    Registered (addAll pyClasses [] [⟨.int, .int, .scalar, false, []⟩, ⟨.bool, .bool, .string, false, []⟩]) .bool .bool .string ∧
    get pyClasses (addAll pyClasses [] [⟨.bool, .bool, .string, false, []⟩, ⟨.int, .int, .scalar, false, []⟩]) .bool = some .string ∧
    get pyClasses (addAll pyClasses [] [⟨.int, .int, .scalar, false, []⟩, ⟨.bool, .bool, .string, false, []⟩]) .bool = some .string := by
  refine ⟨⟨_, rfl⟩, ?_, by decide, by decide⟩
  have h1 : (add pyClasses (addAll pyClasses [] [⟨.int, .int, .scalar, false, []⟩]) .bool .bool .string false []).isSome = true := by decide
  obtain ⟨r, hr⟩ := Option.isSome_iff_exists.1 h1
  have h2 := (registered_add hr Py.bool Py.bool Handler.string).2 (Or.inl ⟨rfl, rfl, rfl⟩)
  have h3 : addAll pyClasses [] [⟨.int, .int, .scalar, false, []⟩, ⟨.bool, .bool, .string, false, []⟩] =
      (add pyClasses (addAll pyClasses [] [⟨.int, .int, .scalar, false, []⟩]) .bool .bool .string false []).getD
        (addAll pyClasses [] [⟨.int, .int, .scalar, false, []⟩]) := rfl
  rw [h3, hr]; exact h2

theorem C95_order_nonvacuous : Order pyClasses.sub ∧ Order pyClasses.asub ∧ Made pyClasses standard ∧
    Registered standard .jaxArray .jaxArray .array :=
  ⟨pySub_order, pyAsub_order, standard_made, by simp [Registered, standard]; decide⟩

end Verif.LeafRegistry
