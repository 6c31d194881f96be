import Verif.Surgery.Transform

/-!
# Stacking parameters puts every parameter where its index says
-/
namespace Verif.Surgery
open Verif.Assoc
set_option linter.unusedSectionVars false

variable {κ α : Type} [DecidableEq κ]

/-! ## Specification -/

/-- `out` holds `v` at position `i` along the axis `a`. -/
def HoldsAt (a : Nat) (out : Arr α) (i : Nat) (v : Arr α) : Prop :=
  ∀ idx : List Nat, idx.length = v.shape.length → out.val (idx.insertIdx a i) = v.val idx

/-- Every element of `out` at position `i` along the axis `a` is `x`. -/
def FilledAt (a : Nat) (out : Arr α) (i : Nat) (x : α) : Prop :=
  ∀ idx : List Nat, idx.length + 1 = out.shape.length → out.val (idx.insertIdx a i) = x

/-- The parameter `k`, with value `v`, is the item number `i` of the stack called `b`. -/
def Item (classify : κ → Option (κ × Nat)) (params : List (κ × Arr α)) (k : κ) (v : Arr α) (b : κ) (i : Nat) : Prop :=
  (k, v) ∈ params ∧ classify k = some (b, i)

/-- The size of the stacks: as given, or the greatest index of any stack plus one. -/
def IsCount (cfg : StackCfg κ α) (params : List (κ × Arr α)) (n : Nat) : Prop :=
  cfg.expected = some n ∨
  (cfg.expected = none ∧ (∀ k v b i, Item cfg.classify params k v b i → i < n) ∧
    ∃ k v b i, Item cfg.classify params k v b i ∧ n = i + 1)

/-- The axis `a` of the stack that the argument `axis` names when the items have `rank` axes: counted from the
front, or from the end if negative. -/
def AxisOf (rank : Nat) (axis : Int) (a : Nat) : Prop :=
  a ≤ rank ∧ (axis = a ∨ axis = (a : Int) - (rank + 1))

theorem npAxis_of (rank : Nat) (axis : Int) (a : Nat) (h : AxisOf rank axis a) : npAxis rank axis = some a := by
  obtain ⟨h1, h2⟩ := h
  unfold npAxis
  rcases h2 with h2 | h2
  · rw [if_pos (by omega)]; simp [h2]
  · rw [if_neg (by omega), if_pos (by omega)]
    simp only [Option.some.injEq]; omega

/-! ## Lemmas: grouping -/

/-- The value of index `i` in the group of `b`. -/
def look (groups : List (κ × Group α)) (b : κ) (i : Nat) : Option (Arr α) :=
  Assoc.get ((Assoc.get groups b).getD []) i

theorem look_put (groups : List (κ × Group α)) (b b' : κ) (i i' : Nat) (v : Arr α) :
    look (put groups b (put ((Assoc.get groups b).getD []) i v)) b' i' =
      if b' = b ∧ i' = i then some v else look groups b' i' := by
  unfold look
  rw [get_put]
  by_cases hb : b' = b
  · subst hb
    simp only [if_true, Option.getD_some, true_and, get_put]
  · simp [hb]

/-- Shape of the groups: distinct base keys, and in each group distinct indices and at least one item. -/
def GoodGroups (groups : List (κ × Group α)) : Prop :=
  (keys groups).Nodup ∧ ∀ b g, Assoc.get groups b = some g → (keys g).Nodup ∧ g ≠ []

theorem put_ne_nil {κ ν : Type} [DecidableEq κ] (m : List (κ × ν)) (k : κ) (v : ν) : put m k v ≠ [] := by
  cases m with
  | nil => simp [put]
  | cons p m => by_cases h : p.1 = k <;> simp [put, h]

theorem collect_spec (classify : κ → Option (κ × Nat)) (params unm : List (κ × Arr α))
    (groups : List (κ × Group α)) (unm' groups') (hg : GoodGroups groups)
    (hn : (keys params).Nodup) (hd : ∀ k ∈ keys params, k ∉ keys unm)
    (h : collect classify params unm groups = some (unm', groups')) :
    GoodGroups groups' ∧
    (∀ k v, Assoc.get unm' k = some v ↔ Assoc.get unm k = some v ∨ ((k, v) ∈ params ∧ classify k = none)) ∧
    (∀ b i v, look groups' b i = some v ↔ look groups b i = some v ∨ ∃ k, (k, v) ∈ params ∧ classify k = some (b, i)) := by
  induction params generalizing unm groups with
  | nil =>
    simp only [collect, Option.some.injEq, Prod.mk.injEq] at h
    obtain ⟨rfl, rfl⟩ := h
    exact ⟨hg, by simp, by simp⟩
  | cons kv rest ih =>
    obtain ⟨k, v⟩ := kv
    simp only [keys, List.map_cons, List.nodup_cons] at hn
    have hkr : k ∉ keys rest := hn.1
    simp only [collect] at h
    cases hc : classify k with
    | none =>
      simp only [hc] at h
      have hku : k ∉ keys unm := hd k (by simp [keys])
      obtain ⟨h1, h2, h3⟩ := ih (put unm k v) groups hg hn.2 (by
        intro x hx hxu
        rcases (mem_keys_put _ _ _ _).mp hxu with rfl | hxu
        · exact hkr hx
        · exact hd x (by simp only [keys, List.map_cons, List.mem_cons]; exact .inr hx) hxu) h
      refine ⟨h1, fun x w => ?_, fun b i w => ?_⟩
      · rw [h2, get_put]
        by_cases hxk : x = k
        · subst hxk
          have : Assoc.get unm x = none := (get_eq_none_iff _ _).mpr hku
          have hnr : (x, w) ∉ rest := fun hm => hkr (List.mem_map.mpr ⟨_, hm, rfl⟩)
          simp only [if_true, Option.some.injEq, hnr, false_and, or_false, this, reduceCtorEq, List.mem_cons,
            Prod.mk.injEq, true_and, false_or, hc, and_true]
          exact eq_comm
        · simp [hxk]
      · rw [h3]
        constructor
        · rintro (h' | ⟨x, hx, hcx⟩)
          · exact .inl h'
          · exact .inr ⟨x, List.mem_cons_of_mem _ hx, hcx⟩
        · rintro (h' | ⟨x, hx, hcx⟩)
          · exact .inl h'
          · rcases List.mem_cons.mp hx with heq | hx
            · simp only [Prod.mk.injEq] at heq
              rw [heq.1, hc] at hcx; cases hcx
            · exact .inr ⟨x, hx, hcx⟩
    | some bi =>
      obtain ⟨b, i⟩ := bi
      simp only [hc] at h
      split at h
      · cases h
      · rename_i hni
        have hgood : GoodGroups (put groups b (put ((Assoc.get groups b).getD []) i v)) := by
          refine ⟨nodup_put _ _ _ hg.1, fun b' g' hb' => ?_⟩
          rw [get_put] at hb'
          by_cases hbb : b' = b
          · simp only [hbb, if_true, Option.some.injEq] at hb'
            subst hb'
            refine ⟨nodup_put _ _ _ ?_, put_ne_nil _ _ _⟩
            cases hgb : Assoc.get groups b with
            | none => simp [keys]
            | some g => simpa using (hg.2 b g hgb).1
          · simp only [hbb, if_false] at hb'
            exact hg.2 b' g' hb'
        obtain ⟨h1, h2, h3⟩ := ih unm _ hgood hn.2 (fun x hx => hd x (by
          simp only [keys, List.map_cons, List.mem_cons]; exact .inr hx)) h
        refine ⟨h1, fun x w => ?_, fun b' i' w => ?_⟩
        · rw [h2]
          constructor
          · rintro (h' | ⟨hx, hcx⟩)
            · exact .inl h'
            · exact .inr ⟨List.mem_cons_of_mem _ hx, hcx⟩
          · rintro (h' | ⟨hx, hcx⟩)
            · exact .inl h'
            · rcases List.mem_cons.mp hx with heq | hx
              · simp only [Prod.mk.injEq] at heq
                rw [heq.1, hc] at hcx; cases hcx
              · exact .inr ⟨hx, hcx⟩
        · have hnone : look groups b i = none := (get_eq_none_iff _ _).mpr hni
          rw [h3, look_put]
          by_cases hbi : b' = b ∧ i' = i
          · obtain ⟨rfl, rfl⟩ := hbi
            simp only [and_self, if_true, Option.some.injEq, hnone, reduceCtorEq, false_or]
            constructor
            · rintro (rfl | ⟨x, hx, hcx⟩)
              · exact ⟨k, List.mem_cons_self .., hc⟩
              · exact ⟨x, List.mem_cons_of_mem _ hx, hcx⟩
            · rintro ⟨x, hx, hcx⟩
              rcases List.mem_cons.mp hx with heq | hx
              · simp only [Prod.mk.injEq] at heq
                exact .inl heq.2.symm
              · exact .inr ⟨x, hx, hcx⟩
          · simp only [hbi, if_false]
            constructor
            · rintro (h' | ⟨x, hx, hcx⟩)
              · exact .inl h'
              · exact .inr ⟨x, List.mem_cons_of_mem _ hx, hcx⟩
            · rintro (h' | ⟨x, hx, hcx⟩)
              · exact .inl h'
              · rcases List.mem_cons.mp hx with heq | hx
                · simp only [Prod.mk.injEq] at heq
                  rw [heq.1, hc] at hcx
                  simp only [Option.some.injEq, Prod.mk.injEq] at hcx
                  exact absurd ⟨hcx.1.symm, hcx.2.symm⟩ hbi
                · exact .inr ⟨x, hx, hcx⟩

/-- The grouping of a whole dictionary. -/
theorem collect_top (classify : κ → Option (κ × Nat)) (params unm : List (κ × Arr α)) (groups)
    (hn : (keys params).Nodup) (h : collect classify params [] [] = some (unm, groups)) :
    GoodGroups groups ∧
    (∀ k v, Assoc.get unm k = some v ↔ (k, v) ∈ params ∧ classify k = none) ∧
    (∀ b i v, look groups b i = some v ↔ ∃ k, Item classify params k v b i) := by
  obtain ⟨h1, h2, h3⟩ := collect_spec classify params [] [] unm groups
    ⟨by simp [keys], by simp⟩ hn (by simp [keys]) h
  exact ⟨h1, by simpa using h2, by simpa [look, Item] using h3⟩

/-- Grouping fails only when two parameters claim the same place. -/
theorem collect_isSome (classify : κ → Option (κ × Nat)) (params unm : List (κ × Arr α)) (groups : List (κ × Group α))
    (hn : (keys params).Nodup)
    (hinj : ∀ k k' b i, k ∈ keys params → k' ∈ keys params → classify k = some (b, i) → classify k' = some (b, i) → k = k')
    (hnew : ∀ k b i, k ∈ keys params → classify k = some (b, i) → look groups b i = none) :
    ∃ out, collect classify params unm groups = some out := by
  induction params generalizing unm groups with
  | nil => exact ⟨_, rfl⟩
  | cons kv rest ih =>
    obtain ⟨k, v⟩ := kv
    simp only [keys, List.map_cons, List.nodup_cons] at hn
    have hin : ∀ x ∈ keys rest, x ∈ keys ((k, v) :: rest) := fun x hx => by
      simp only [keys, List.map_cons, List.mem_cons]; exact .inr hx
    simp only [collect]
    cases hc : classify k with
    | none => exact ih _ _ hn.2 (fun a b c d ha hb => hinj a b c d (hin a ha) (hin b hb)) (fun a b c ha => hnew a b c (hin a ha))
    | some bi =>
      obtain ⟨b, i⟩ := bi
      have hno : i ∉ keys ((Assoc.get groups b).getD []) :=
        (get_eq_none_iff _ _).mp (hnew k b i (by simp [keys]) hc)
      simp only [hno, if_false]
      refine ih _ _ hn.2 (fun a b c d ha hb => hinj a b c d (hin a ha) (hin b hb)) (fun k' b' i' hk' hc' => ?_)
      rw [look_put]
      by_cases hbi : b' = b ∧ i' = i
      · obtain ⟨rfl, rfl⟩ := hbi
        have := hinj k k' b' i' (by simp [keys]) (hin k' hk') hc hc'
        subst this
        exact absurd hk' hn.1
      · simp only [hbi, if_false]
        exact hnew k' b' i' (hin k' hk') hc'

theorem stackAll_get (cfg : StackCfg κ α) (n : Nat) (gs : List (κ × Group α)) (hnd : (keys gs).Nodup)
    (acc r : List (κ × Arr α)) (h : stackAll cfg n gs acc = some r) :
    (∀ b g, (b, g) ∈ gs → ∃ a, stackOne cfg.axis n (cfg.filler b) g = some a ∧ Assoc.get r b = some a) ∧
    (∀ k, k ∉ keys gs → Assoc.get r k = Assoc.get acc k) := by
  induction gs generalizing acc with
  | nil =>
    simp only [stackAll, Option.some.injEq] at h
    subst h; exact ⟨by simp, by simp⟩
  | cons bg rest ih =>
    obtain ⟨b, g⟩ := bg
    simp only [keys, List.map_cons, List.nodup_cons] at hnd
    simp only [stackAll] at h
    cases hs : stackOne cfg.axis n (cfg.filler b) g with
    | none => simp [hs] at h
    | some a =>
      simp only [hs] at h
      obtain ⟨h1, h2⟩ := ih hnd.2 _ h
      refine ⟨fun b' g' hm => ?_, fun k hk => ?_⟩
      · rcases List.mem_cons.mp hm with heq | hm
        · simp only [Prod.mk.injEq] at heq
          obtain ⟨rfl, rfl⟩ := heq
          exact ⟨a, hs, by rw [h2 _ hnd.1]; simp⟩
        · exact h1 b' g' hm
      · simp only [keys, List.map_cons, List.mem_cons, not_or] at hk
        rw [h2 k hk.2, get_put_ne _ _ hk.1]

theorem stackAll_isSome (cfg : StackCfg κ α) (n : Nat) (gs : List (κ × Group α)) (acc : List (κ × Arr α))
    (h : ∀ b g, (b, g) ∈ gs → ∃ a, stackOne cfg.axis n (cfg.filler b) g = some a) :
    ∃ r, stackAll cfg n gs acc = some r := by
  induction gs generalizing acc with
  | nil => exact ⟨_, rfl⟩
  | cons bg rest ih =>
    obtain ⟨b, g⟩ := bg
    obtain ⟨a, ha⟩ := h b g (List.mem_cons_self ..)
    simp only [stackAll, ha]
    exact ih _ fun b' g' hm => h b' g' (List.mem_cons_of_mem _ hm)

theorem ordered_perm (cfg : StackCfg κ α) (gs : List (κ × Group α)) : (ordered cfg gs).Perm gs := by
  unfold ordered; split
  · exact List.mergeSort_perm _ _
  · exact List.Perm.refl _

theorem foldl_max_ge (l : List Nat) (m : Nat) : m ≤ l.foldl max m ∧ ∀ x ∈ l, x ≤ l.foldl max m := by
  induction l generalizing m with
  | nil => simp
  | cons y l ih =>
    obtain ⟨h1, h2⟩ := ih (max m y)
    simp only [List.foldl_cons, List.mem_cons]
    refine ⟨by omega, fun x hx => ?_⟩
    rcases hx with rfl | hx
    · omega
    · exact h2 x hx

theorem foldl_max_mem (l : List Nat) (m : Nat) : l.foldl max m = m ∨ l.foldl max m ∈ l := by
  induction l generalizing m with
  | nil => simp
  | cons y l ih =>
    simp only [List.foldl_cons, List.mem_cons]
    rcases ih (max m y) with h | h
    · rw [h]
      by_cases hmy : m ≤ y
      · right; left; omega
      · left; omega
    · exact .inr (.inr h)

theorem expectedCount_spec (cfg : StackCfg κ α) (params unm : List (κ × Arr α)) (groups) (hne : groups ≠ [])
    (hn : (keys params).Nodup) (h : collect cfg.classify params [] [] = some (unm, groups)) :
    IsCount cfg params (expectedCount cfg groups) := by
  obtain ⟨⟨hnd, hgood⟩, _, hlook⟩ := collect_top _ _ _ _ hn h
  unfold IsCount expectedCount
  cases he : cfg.expected with
  | some n => simp
  | none =>
    right
    simp only [true_and]
    refine ⟨fun k v b i hk => ?_, ?_⟩
    · have hl := (hlook b i v).mpr ⟨k, hk⟩
      unfold look at hl
      cases hb : Assoc.get groups b with
      | none => simp [hb] at hl
      | some g =>
        simp only [hb, Option.getD_some] at hl
        have h1 := (foldl_max_ge (g.map Prod.fst) 0).2 i (List.mem_map.mpr ⟨_, mem_of_get _ _ _ hl, rfl⟩)
        have h2 := (foldl_max_ge (groups.map fun g => (g.2.map Prod.fst).foldl max 0) 0).2 _
          (List.mem_map.mpr ⟨(b, g), mem_of_get _ _ _ hb, rfl⟩)
        simp only at h2
        omega
    · -- the greatest index is an index
      have hitem : ∀ b g i, (b, g) ∈ groups → i ∈ g.map Prod.fst → ∃ k v, Item cfg.classify params k v b i := by
        intro b g i hbg hi
        obtain ⟨⟨i', v⟩, hm, rfl⟩ := List.mem_map.mp hi
        have hg := get_of_mem _ hnd b g hbg
        have : look groups b i' = some v := by
          unfold look; rw [hg]; exact get_of_mem _ (hgood b g hg).1 _ _ hm
        obtain ⟨k, hk⟩ := (hlook _ _ _).mp this
        exact ⟨k, v, hk⟩
      have hmem : ∀ b g, (b, g) ∈ groups → (g.map Prod.fst).foldl max 0 ∈ g.map Prod.fst := by
        intro b g hbg
        have hg := get_of_mem _ hnd b g hbg
        rcases foldl_max_mem (g.map Prod.fst) 0 with h0 | h0
        · cases hgc : g with
          | nil => exact absurd hgc (hgood b g hg).2
          | cons p g' =>
            rw [hgc] at h0
            have h1 := (foldl_max_ge ((p :: g').map Prod.fst) 0).2 p.1 (by simp)
            rw [h0] at h1 ⊢
            have hp0 : p.1 = 0 := Nat.le_zero.mp h1
            simp [hp0]
        · exact h0
      rcases foldl_max_mem (groups.map fun g => (g.2.map Prod.fst).foldl max 0) 0 with h0 | h0
      · cases hgc : groups with
        | nil => exact absurd hgc hne
        | cons bg gs =>
          obtain ⟨b, g⟩ := bg
          have hbg : (b, g) ∈ groups := by rw [hgc]; exact List.mem_cons_self ..
          have h1 := (foldl_max_ge (groups.map fun g => (g.2.map Prod.fst).foldl max 0) 0).2 _
            (List.mem_map.mpr ⟨(b, g), hbg, rfl⟩)
          simp only at h1
          obtain ⟨k, v, hk⟩ := hitem b g _ hbg (hmem b g hbg)
          refine ⟨k, v, b, _, hk, ?_⟩
          rw [← hgc]; omega
      · obtain ⟨⟨b, g⟩, hbg, heq⟩ := List.mem_map.mp h0
        simp only at heq
        obtain ⟨k, v, hk⟩ := hitem b g _ hbg (hmem b g hbg)
        exact ⟨k, v, b, _, hk, by rw [heq]⟩

/-! ## Lemmas: one stack -/

theorem insertIdx_getD (idx : List Nat) (a i : Nat) (h : a ≤ idx.length) : (idx.insertIdx a i).getD a 0 = i := by
  simp [List.getD, List.getElem?_insertIdx_self, h]

theorem eraseIdx_insert (idx : List Nat) (a i : Nat) : (idx.insertIdx a i).eraseIdx a = idx := by
  rw [List.eraseIdx_insertIdx_self]

theorem insert_erase {β : Type} (l : List β) (p : Nat) (x : β) (h : l[p]? = some x) :
    (l.eraseIdx p).insertIdx p x = l := by
  induction l generalizing p with
  | nil => simp at h
  | cons y l ih =>
    cases p with
    | zero => simp at h; simp [h]
    | succ p => simp only [List.eraseIdx_cons_succ, List.insertIdx_succ_cons, ih p (by simpa using h)]

theorem map_insert {β γ : Type} (f : β → γ) (l : List β) (p : Nat) (x : β) :
    (l.insertIdx p x).map f = (l.map f).insertIdx p (f x) := by
  induction l generalizing p with
  | nil => cases p <;> simp
  | cons y l ih => cases p <;> simp [ih]

theorem npAxis_le (r : Nat) (axis : Int) (a : Nat) (h : npAxis r axis = some a) : a ≤ r := by
  unfold npAxis at h
  split at h
  · simp only [Option.some.injEq] at h; omega
  · split at h
    · simp only [Option.some.injEq] at h; omega
    · cases h

theorem npStack_spec (items : List (Arr α)) (axis : Int) (out : Arr α) (h : npStack items axis = some out)
    (i : Nat) (v : Arr α) (hi : items[i]? = some v) (a : Nat) (ha : npAxis v.shape.length axis = some a) :
    out.shape = v.shape.insertIdx a items.length ∧ HoldsAt a out i v := by
  cases items with
  | nil => simp [npStack] at h
  | cons x rest =>
    simp only [npStack] at h
    split at h
    · rename_i hall
      have hv : v.shape = x.shape := by
        have := List.all_eq_true.mp hall v (List.mem_of_getElem? hi)
        simpa using this
      rw [← hv, ha] at h
      simp only [Option.map_some, Option.some.injEq] at h
      subst h
      refine ⟨rfl, fun idx hidx => ?_⟩
      have hle := npAxis_le _ _ _ ha
      simp only [insertIdx_getD idx a i (by omega), hi, Option.getD_some, eraseIdx_insert]
    · cases h

theorem filterMap_get_range (g : Group α) (n : Nat) (hp : ∀ i, i < n → ∃ v, Assoc.get g i = some v) :
    ((List.range n).filterMap fun i => Assoc.get g i).length = n ∧
    ∀ i, i < n → ((List.range n).filterMap fun i => Assoc.get g i)[i]? = Assoc.get g i := by
  induction n with
  | zero => simp
  | succ n ih =>
    obtain ⟨h1, h2⟩ := ih fun i hi => hp i (by omega)
    obtain ⟨v, hv⟩ := hp n (by omega)
    rw [List.range_succ, List.filterMap_append]
    have hlast : List.filterMap (fun i => Assoc.get g i) [n] = [v] := by simp [hv]
    rw [hlast]
    refine ⟨by simp [h1], fun i hi => ?_⟩
    by_cases hin : i < n
    · rw [List.getElem?_append_left (by omega)]; exact h2 i hin
    · have : i = n := by omega
      subst this
      rw [List.getElem?_append_right (by omega), h1, Nat.sub_self, hv]; rfl

theorem setSlice_spec (out : Arr α) (axis : Int) (h0 : 0 ≤ axis) (i : Nat) (v out' : Arr α)
    (h : setSlice out axis i v = some out') :
    axis.toNat < out.shape.length ∧ out.shape.eraseIdx axis.toNat = v.shape ∧ out'.shape = out.shape ∧
    out'.val = fun idx => if idx[axis.toNat]? = some i then v.val (idx.eraseIdx axis.toNat) else out.val idx := by
  simp only [setSlice] at h
  rw [if_neg (by omega : ¬ axis < 0)] at h
  split at h
  · cases h
  · split at h
    · rename_i hc
      simp only [Option.some.injEq] at h
      subst h
      exact ⟨by omega, hc.2, rfl, rfl⟩
    · cases h

theorem fillIn_spec (axis : Int) (h0 : 0 ≤ axis) (n : Nat) (g : Group α) (out out' : Arr α)
    (hnd : (keys g).Nodup) (h : fillIn axis n g out = some out') :
    out'.shape = out.shape ∧
    (∀ i v, (i, v) ∈ g → i < n → axis.toNat < out.shape.length ∧ out.shape.eraseIdx axis.toNat = v.shape ∧
      ∀ idx : List Nat, idx[axis.toNat]? = some i → out'.val idx = v.val (idx.eraseIdx axis.toNat)) ∧
    (∀ idx : List Nat, (∀ i ∈ keys g, i < n → idx[axis.toNat]? ≠ some i) → out'.val idx = out.val idx) := by
  induction g generalizing out with
  | nil =>
    simp only [fillIn, Option.some.injEq] at h
    subst h; simp
  | cons iv rest ih =>
    obtain ⟨j, w⟩ := iv
    simp only [keys, List.map_cons, List.nodup_cons] at hnd
    simp only [fillIn] at h
    split at h
    · rename_i hj
      obtain ⟨h1, h2, h3⟩ := ih out hnd.2 h
      refine ⟨h1, fun i v hm hi => ?_, fun idx hidx => ?_⟩
      · rcases List.mem_cons.mp hm with heq | hm
        · simp only [Prod.mk.injEq] at heq; omega
        · exact h2 i v hm hi
      · exact h3 idx fun i hi => hidx i (by simp only [keys, List.map_cons, List.mem_cons]; exact .inr hi)
    · rename_i hj
      cases hs : setSlice out axis j w with
      | none => simp [hs] at h
      | some o =>
        simp only [hs] at h
        obtain ⟨s1, s2, s3, s4⟩ := setSlice_spec out axis h0 j w o hs
        obtain ⟨h1, h2, h3⟩ := ih o hnd.2 h
        rw [s3] at h1 h2
        refine ⟨h1, fun i v hm hi => ?_, fun idx hidx => ?_⟩
        · rcases List.mem_cons.mp hm with heq | hm
          · simp only [Prod.mk.injEq] at heq
            obtain ⟨rfl, rfl⟩ := heq
            refine ⟨s1, s2, fun idx hidx => ?_⟩
            rw [h3 idx, s4]
            · simp [hidx]
            · intro i' hi' _ hcon
              rw [hidx] at hcon
              simp only [Option.some.injEq] at hcon
              subst hcon
              exact hnd.1 hi'
          · exact h2 i v hm hi
        · rw [h3 idx fun i hi => hidx i (by simp only [keys, List.map_cons, List.mem_cons]; exact .inr hi), s4]
          have := hidx j (by simp [keys]) (by omega)
          simp [this]

theorem stackOne_spec (axis : Int) (n : Nat) (filler : Option α) (g : Group α) (out : Arr α)
    (hnd : (keys g).Nodup) (h : stackOne axis n filler g = some out) (hax : filler = none ∨ 0 ≤ axis)
    (i : Nat) (v : Arr α) (hi : Assoc.get g i = some v) (a : Nat) (ha : npAxis v.shape.length axis = some a) :
    (filler = none → i < n ∧ ∀ j, j < n → ∃ w, Assoc.get g j = some w) ∧
    (i < n → out.shape = v.shape.insertIdx a n ∧ HoldsAt a out i v ∧
      ∀ j, j < n → Assoc.get g j = none → ∃ x, filler = some x ∧ FilledAt a out j x) := by
  cases filler with
  | none =>
    simp only [stackOne] at h
    split at h
    · rename_i hp
      have hp := List.isPerm_iff.mp hp
      have hall : ∀ j, j < n → ∃ w, Assoc.get g j = some w := fun j hj =>
        (mem_keys_iff g j).mp (hp.mem_iff.mpr (List.mem_range.mpr hj))
      have hin : i < n := List.mem_range.mp (hp.mem_iff.mp ((mem_keys_iff g i).mpr ⟨v, hi⟩))
      obtain ⟨f1, f2⟩ := filterMap_get_range g n hall
      obtain ⟨s1, s2⟩ := npStack_spec _ axis out h i v (by rw [f2 i hin, hi]) a ha
      rw [f1] at s1
      refine ⟨fun _ => ⟨hin, hall⟩, fun _ => ⟨s1, s2, fun j hj hno => ?_⟩⟩
      obtain ⟨w, hw⟩ := hall j hj
      rw [hw] at hno; cases hno
    · cases h
  | some x =>
    have h0 : 0 ≤ axis := by simpa using hax
    simp only [stackOne] at h
    cases hg : g with
    | nil => rw [hg] at hi; simp at hi
    | cons p rest =>
      obtain ⟨i0, rep⟩ := p
      rw [hg] at h
      simp only at h
      split at h
      · cases h
      · rw [← hg] at h
        obtain ⟨f1, f2, f3⟩ := fillIn_spec axis h0 n g _ out hnd h
        refine ⟨by simp, fun hin => ?_⟩
        obtain ⟨e1, e2, e3⟩ := f2 i v (mem_of_get _ _ _ hi) hin
        have hale := npAxis_le _ _ _ ha
        have haa : axis.toNat = a := by
          unfold npAxis at ha
          split at ha
          · simpa using ha
          · split at ha
            · omega
            · cases ha
        have hpos : insertPos rep.shape.length axis = min a rep.shape.length := by
          unfold insertPos; rw [if_neg (by omega), haa]
        simp only [hpos, haa] at f1 f3 e1 e2 e3
        have hr : a ≤ rep.shape.length := by
          rw [List.length_insertIdx] at e1
          split at e1 <;> omega
        rw [Nat.min_eq_left hr] at f1 e2
        rw [List.eraseIdx_insertIdx_self] at e2
        rw [e2] at f1
        refine ⟨f1, fun idx hidx => ?_, fun j hj hno => ⟨x, rfl, fun idx hidx => ?_⟩⟩
        · rw [e3 _ (by rw [List.getElem?_insertIdx_self]; simp; omega), List.eraseIdx_insertIdx_self]
        · have hlen : idx.length = v.shape.length := by
            rw [f1, List.length_insertIdx] at hidx
            split at hidx <;> omega
          rw [f3 _ fun i' hi' _ hcon => ?_]
          rw [List.getElem?_insertIdx_self] at hcon
          simp only [show a ≤ idx.length by omega, if_true, Option.some.injEq] at hcon
          subst hcon
          obtain ⟨w, hw⟩ := (mem_keys_iff g j).mp hi'
          rw [← hg, hw] at hno; cases hno

/-! ## The property -/

theorem stack_some (cfg : StackCfg κ α) (params r : List (κ × Arr α)) (h : (stack cfg params).result = some r) :
    ∃ unm groups, collect cfg.classify params [] [] = some (unm, groups) ∧
      ((groups = [] ∧ r = unm) ∨ (groups ≠ [] ∧ stackAll cfg (expectedCount cfg groups) (ordered cfg groups) unm = some r)) := by
  unfold stack at h
  cases hc : collect cfg.classify params [] [] with
  | none => simp [hc] at h
  | some ug =>
    obtain ⟨unm, groups⟩ := ug
    refine ⟨unm, groups, rfl, ?_⟩
    simp only [hc] at h
    cases groups with
    | nil => simp only [Option.some.injEq] at h; exact .inl ⟨rfl, h.symm⟩
    | cons p gs => exact .inr ⟨by simp, h⟩

/-- C84: when stacking succeeds, the parameter that the pattern makes item number `i` of the stack `b` is
found in the result under `b`, at position `i` of the chosen axis, whole; the size of that axis is the
expected count or the greatest index plus one; a position for which there is no parameter holds the filler of
`b`; and with no filler there is no such position. Proved for items inside the stack; without a filler every
item is; with a filler, see `C84_stack_skips_fails`. -/
theorem C84_stack_partial (cfg : StackCfg κ α) (params r : List (κ × Arr α)) (hn : (keys params).Nodup)
    (h : (stack cfg params).result = some r) (k : κ) (v : Arr α) (b : κ) (i : Nat)
    (hk : Item cfg.classify params k v b i) (a : Nat) (ha : AxisOf v.shape.length cfg.axis a)
    (hax : cfg.filler b = none ∨ 0 ≤ cfg.axis) :
    ∃ out n, IsCount cfg params n ∧ Assoc.get r b = some out ∧
      (cfg.filler b = none → i < n ∧ ∀ j, j < n → ∃ k' v', Item cfg.classify params k' v' b j) ∧
      (i < n → out.shape = v.shape.insertIdx a n ∧ HoldsAt a out i v ∧
        ∀ j, j < n → (¬ ∃ k' v', Item cfg.classify params k' v' b j) →
          ∃ x, cfg.filler b = some x ∧ FilledAt a out j x) := by
  obtain ⟨unm, groups, hc, hr⟩ := stack_some cfg params r h
  obtain ⟨⟨hnd, hgood⟩, _, hlook⟩ := collect_top _ _ _ _ hn hc
  have hl := (hlook b i v).mpr ⟨k, hk⟩
  unfold look at hl
  cases hb : Assoc.get groups b with
  | none => simp [hb] at hl
  | some g =>
    simp only [hb, Option.getD_some] at hl
    have hbg := mem_of_get _ _ _ hb
    rcases hr with ⟨hnil, _⟩ | ⟨hne, hall⟩
    · rw [hnil] at hbg; cases hbg
    · have hperm := ordered_perm cfg groups
      have hnd' : (keys (ordered cfg groups)).Nodup := (hperm.map Prod.fst).nodup_iff.mpr hnd
      obtain ⟨out, ho, hout⟩ := (stackAll_get cfg _ _ hnd' _ _ hall).1 b g (hperm.mem_iff.mpr hbg)
      obtain ⟨s1, s2⟩ := stackOne_spec _ _ _ g out (hgood b g hb).1 ho hax i v hl a (npAxis_of _ _ _ ha)
      have hget : ∀ j w, Assoc.get g j = some w → ∃ k' v', Item cfg.classify params k' v' b j := fun j w hw => by
        obtain ⟨k', hk'⟩ := (hlook b j w).mp (by unfold look; rw [hb]; exact hw)
        exact ⟨k', w, hk'⟩
      refine ⟨out, _, expectedCount_spec cfg params unm groups hne hn hc, hout, fun hf => ?_, fun hin => ?_⟩
      · obtain ⟨t1, t2⟩ := s1 hf
        exact ⟨t1, fun j hj => (t2 j hj).elim fun w hw => hget j w hw⟩
      · obtain ⟨t1, t2, t3⟩ := s2 hin
        refine ⟨t1, t2, fun j hj hno => t3 j hj ?_⟩
        cases hgj : Assoc.get g j with
        | none => rfl
        | some w => exact absurd (hget j w hgj) hno

/-- C84: a parameter that the pattern does not match is in the result, unchanged, unless its name is that of a
stack; and the result contains nothing but these and the stacks. -/
theorem C84_stack_rest (cfg : StackCfg κ α) (params r : List (κ × Arr α)) (hn : (keys params).Nodup)
    (h : (stack cfg params).result = some r) (k : κ) (hb : ¬ ∃ k' v i, Item cfg.classify params k' v k i) (v : Arr α) :
    Assoc.get r k = some v ↔ (k, v) ∈ params ∧ cfg.classify k = none := by
  obtain ⟨unm, groups, hc, hr⟩ := stack_some cfg params r h
  obtain ⟨⟨hnd, hgood⟩, hu, hlook⟩ := collect_top _ _ _ _ hn hc
  rcases hr with ⟨_, rfl⟩ | ⟨hne, hall⟩
  · exact hu k v
  · have hperm := ordered_perm cfg groups
    have hnd' : (keys (ordered cfg groups)).Nodup := (hperm.map Prod.fst).nodup_iff.mpr hnd
    rw [(stackAll_get cfg _ _ hnd' _ _ hall).2 k, hu]
    intro hk
    have hk := (hperm.map Prod.fst).mem_iff.mp hk
    obtain ⟨g, hg⟩ := (mem_keys_iff groups k).mp hk
    obtain ⟨hgn, hgne⟩ := hgood k g hg
    cases hgc : g with
    | nil => exact hgne hgc
    | cons p g' =>
      have : look groups k p.1 = some p.2 := by
        unfold look; rw [hg, hgc]; simp [Assoc.get]
      obtain ⟨k', hk'⟩ := (hlook _ _ _).mp this
      exact hb ⟨k', _, _, hk'⟩

/-- C84: stacking without a filler succeeds whenever no two parameters claim the same place, every stack has
exactly the indices below the count, and the items of a stack have one shape, for which the axis is valid. -/
theorem C84_stack_succeeds (cfg : StackCfg κ α) (params : List (κ × Arr α)) (hn : (keys params).Nodup)
    (hf : ∀ b, cfg.filler b = none) (n : Nat) (hcount : IsCount cfg params n)
    (hinj : ∀ k v k' v' b i, Item cfg.classify params k v b i → Item cfg.classify params k' v' b i → k = k')
    (hlt : ∀ k v b i, Item cfg.classify params k v b i → i < n)
    (hfull : ∀ k v b i, Item cfg.classify params k v b i → ∀ j, j < n → ∃ k' v', Item cfg.classify params k' v' b j)
    (hshape : ∀ k v i k' v' i' b, Item cfg.classify params k v b i → Item cfg.classify params k' v' b i' → v.shape = v'.shape)
    (hax : ∀ k v b i, Item cfg.classify params k v b i → ∃ a, AxisOf v.shape.length cfg.axis a) :
    ∃ r, (stack cfg params).result = some r := by
  have hmemv : ∀ k, k ∈ keys params → ∃ v, (k, v) ∈ params := fun k hk => by
    obtain ⟨⟨k', v⟩, hm, rfl⟩ := List.mem_map.mp hk
    exact ⟨v, hm⟩
  obtain ⟨⟨unm, groups⟩, hc⟩ := collect_isSome cfg.classify params [] [] hn (fun k k' b i hk hk' c c' => by
    obtain ⟨v, hv⟩ := hmemv k hk
    obtain ⟨v', hv'⟩ := hmemv k' hk'
    exact hinj k v k' v' b i ⟨hv, c⟩ ⟨hv', c'⟩) (by simp [look])
  obtain ⟨⟨hnd, hgood⟩, _, hlook⟩ := collect_top _ _ _ _ hn hc
  unfold stack
  simp only [hc]
  cases hgc : groups with
  | nil => exact ⟨_, rfl⟩
  | cons p gs =>
    simp only
    rw [← hgc]
    have hcnt : expectedCount cfg groups = n := by
      have h1 := expectedCount_spec cfg params unm groups (by simp [hgc]) hn hc
      rcases h1 with h1 | ⟨h1, h2, h3⟩ <;> rcases hcount with h4 | ⟨h4, h5, h6⟩
      · rw [h1] at h4; simpa using h4
      · rw [h1] at h4; cases h4
      · rw [h1] at h4; cases h4
      · obtain ⟨k, v, b, i, hk, hi⟩ := h3
        obtain ⟨k', v', b', i', hk', hi'⟩ := h6
        have := h2 _ _ _ _ hk'
        have := h5 _ _ _ _ hk
        omega
    refine stackAll_isSome cfg _ _ _ fun b g hm => ?_
    have hbg := (ordered_perm cfg groups).mem_iff.mp hm
    have hb := get_of_mem _ hnd b g hbg
    obtain ⟨hgn, hgne⟩ := hgood b g hb
    have hget : ∀ j w, Assoc.get g j = some w → ∃ k', Item cfg.classify params k' w b j := fun j w hw =>
      (hlook b j w).mp (by unfold look; rw [hb]; exact hw)
    cases hg0 : g with
    | nil => exact absurd hg0 hgne
    | cons p0 g0 =>
      obtain ⟨i0, v0⟩ := p0
      have h00 : Assoc.get g i0 = some v0 := by rw [hg0]; simp [Assoc.get]
      obtain ⟨k0, hk0⟩ := hget i0 v0 h00
      have hall : ∀ j, j < n → ∃ w, Assoc.get g j = some w := fun j hj => by
        obtain ⟨k', v', hk'⟩ := hfull _ _ _ _ hk0 j hj
        have := (hlook b j v').mpr ⟨k', hk'⟩
        unfold look at this; rw [hb] at this
        exact ⟨v', this⟩
      have hperm : (keys g).isPerm (List.range n) = true := by
        rw [List.isPerm_iff, List.perm_ext_iff_of_nodup hgn List.nodup_range]
        intro j
        rw [List.mem_range, mem_keys_iff]
        constructor
        · rintro ⟨w, hw⟩
          obtain ⟨k', hk'⟩ := hget j w hw
          exact hlt _ _ _ _ hk'
        · exact hall j
      rw [← hg0]
      simp only [stackOne, hf b, hcnt, hperm, if_true]
      obtain ⟨f1, f2⟩ := filterMap_get_range g n hall
      cases hits : (List.range n).filterMap fun i => Assoc.get g i with
      | nil =>
        rw [hits] at f1
        have := hlt _ _ _ _ hk0
        simp at f1; omega
      | cons x rest =>
        have hsh : ∀ y ∈ x :: rest, y.shape = v0.shape := fun y hy => by
          rw [← hits] at hy
          obtain ⟨j, _, hj⟩ := List.mem_filterMap.mp hy
          obtain ⟨k', hk'⟩ := hget j y hj
          exact hshape _ _ _ _ _ _ _ hk' hk0
        have hx := hsh x (List.mem_cons_self ..)
        simp only [npStack]
        have hallb : (x :: rest).all (fun b => b.shape == x.shape) = true :=
          List.all_eq_true.mpr fun y hy => by simp [hsh y hy, hx]
        rw [hallb]
        obtain ⟨p', hp'⟩ := hax _ _ _ _ hk0
        rw [← hx] at hp'
        simp [npAxis_of _ _ _ hp']

/-- C84: stacking leaves the dictionary of the caller alone, unless `inplace` is asked for; then it removes
exactly the matched parameters. -/
theorem C84_stack_caller (cfg : StackCfg κ α) (params r : List (κ × Arr α)) (h : (stack cfg params).result = some r)
    (k : κ) : Assoc.get (stack cfg params).caller k =
      if cfg.inplace = true ∧ (cfg.classify k).isSome then none else Assoc.get params k := by
  obtain ⟨unm, groups, hc, _⟩ := stack_some cfg params r h
  have hdel : ∀ (l : List κ) (m : List (κ × Arr α)), Assoc.get (l.foldl Assoc.del m) k = if k ∈ l then none else Assoc.get m k := by
    intro l
    induction l with
    | nil => simp
    | cons x l ih =>
      intro m
      rw [List.foldl_cons, ih, get_del]
      by_cases hx : k = x <;> by_cases hl : k ∈ l <;> simp [hx, hl]
  have hcal : (stack cfg params).caller =
      (if cfg.inplace then (keys params).filter fun k => (cfg.classify k).isSome else []).foldl Assoc.del params := by
    unfold stack; simp only [hc]; cases groups <;> rfl
  rw [hcal, hdel]
  by_cases hi : cfg.inplace = true
  · simp only [hi, if_true, List.mem_filter, true_and]
    by_cases hs : (cfg.classify k).isSome = true
    · by_cases hm : k ∈ keys params
      · simp [hs, hm]
      · simp [hs, hm, (get_eq_none_iff _ _).mpr hm]
    · simp [hs]
  · simp [hi]

/-- C84 (finding): with `inplace`, matched parameters are removed from the dictionary of the caller before the
stacks are checked: when some stack then cannot be made, the call raises and every matched parameter is
gone. -/
theorem C84_stack_inplace_fails (cfg : StackCfg κ α) (params : List (κ × Arr α)) (hn : (keys params).Nodup)
    (hin : cfg.inplace = true) (hf : ∀ b, cfg.filler b = none) (n : Nat) (he : cfg.expected = some n)
    (hinj : ∀ k v k' v' b i, Item cfg.classify params k v b i → Item cfg.classify params k' v' b i → k = k')
    (k : κ) (v : Arr α) (b : κ) (i j : Nat) (hk : Item cfg.classify params k v b i) (hj : j < n)
    (hmiss : ¬ ∃ k' v', Item cfg.classify params k' v' b j) :
    (stack cfg params).result = none ∧
    ∀ k' v' b' i', Item cfg.classify params k' v' b' i' → Assoc.get (stack cfg params).caller k' = none := by
  have hmemv : ∀ k, k ∈ keys params → ∃ v, (k, v) ∈ params := fun k hk => by
    obtain ⟨⟨k', v⟩, hm, rfl⟩ := List.mem_map.mp hk
    exact ⟨v, hm⟩
  obtain ⟨⟨unm, groups⟩, hc⟩ := collect_isSome cfg.classify params [] [] hn (fun k k' b i hk hk' c c' => by
    obtain ⟨v, hv⟩ := hmemv k hk
    obtain ⟨v', hv'⟩ := hmemv k' hk'
    exact hinj k v k' v' b i ⟨hv, c⟩ ⟨hv', c'⟩) (by simp [look])
  obtain ⟨⟨hnd, hgood⟩, _, hlook⟩ := collect_top _ _ _ _ hn hc
  constructor
  · cases hres : (stack cfg params).result with
    | none => rfl
    | some r =>
      exfalso
      obtain ⟨unm', groups', hc', hr⟩ := stack_some cfg params r hres
      rw [hc] at hc'
      simp only [Option.some.injEq, Prod.mk.injEq] at hc'
      obtain ⟨rfl, rfl⟩ := hc'
      have hl := (hlook b i v).mpr ⟨k, hk⟩
      unfold look at hl
      cases hb : Assoc.get groups b with
      | none => simp [hb] at hl
      | some g =>
        have hbg := mem_of_get _ _ _ hb
        rcases hr with ⟨hnil, _⟩ | ⟨hne, hall⟩
        · rw [hnil] at hbg; cases hbg
        · have hperm := ordered_perm cfg groups
          have hnd' : (keys (ordered cfg groups)).Nodup := (hperm.map Prod.fst).nodup_iff.mpr hnd
          obtain ⟨out, ho, _⟩ := (stackAll_get cfg _ _ hnd' _ _ hall).1 b g (hperm.mem_iff.mpr hbg)
          have hcnt : expectedCount cfg groups = n := by unfold expectedCount; rw [he]
          rw [hf b, hcnt] at ho
          simp only [stackOne] at ho
          split at ho
          · rename_i hp
            have hp := List.isPerm_iff.mp hp
            obtain ⟨w, hw⟩ := (mem_keys_iff g j).mp (hp.mem_iff.mpr (List.mem_range.mpr hj))
            obtain ⟨k', hk'⟩ := (hlook b j w).mp (by unfold look; rw [hb]; exact hw)
            exact hmiss ⟨k', w, hk'⟩
          · cases ho
  · intro k' v' b' i' hk'
    have hcal : (stack cfg params).caller = ((keys params).filter fun k => (cfg.classify k).isSome).foldl Assoc.del params := by
      unfold stack; simp only [hc, hin, if_true]; cases groups <;> rfl
    have hdel : ∀ (l : List κ) (m : List (κ × Arr α)), (k' ∈ l ∨ Assoc.get m k' = none) → Assoc.get (l.foldl Assoc.del m) k' = none := by
      intro l
      induction l with
      | nil => intro m h; simpa using h
      | cons x l ih =>
        intro m h
        rw [List.foldl_cons]
        apply ih
        by_cases hx : k' = x
        · right; rw [hx]; simp
        · rcases h with h | h
          · left; simpa [hx] using h
          · right; rw [get_del_ne _ hx]; exact h
    rw [hcal]
    apply hdel
    left
    rw [List.mem_filter]
    exact ⟨List.mem_map.mpr ⟨_, hk'.1, rfl⟩, by simp [hk'.2]⟩

/-- C84 (finding): an unmatched parameter whose name is the base key of a stack is silently replaced by the
stack. -/
theorem C84_stack_clobbers_fails (cfg : StackCfg κ α) (params r : List (κ × Arr α)) (hn : (keys params).Nodup)
    (h : (stack cfg params).result = some r) (k : κ) (v : Arr α) (b : κ) (i : Nat)
    (hk : Item cfg.classify params k v b i) (w : Arr α) (_hw : (b, w) ∈ params) (_hu : cfg.classify b = none)
    (a : Nat) (ha : AxisOf v.shape.length cfg.axis a) (hf : cfg.filler b = none) (hwv : w.shape = v.shape) :
    Assoc.get r b ≠ some w := by
  obtain ⟨out, n, _, hout, h1, h2⟩ := C84_stack_partial cfg params r hn h k v b i hk a ha (.inl hf)
  intro hcon
  rw [hout] at hcon
  simp only [Option.some.injEq] at hcon
  have h3 := (h2 (h1 hf).1).1
  rw [hcon, hwv] at h3
  have h4 := congrArg List.length h3
  rw [List.length_insertIdx, if_pos ha.1] at h4
  omega

/-- C84 (finding): with a filler, an item whose index is not below the expected count is dropped, as long as
there are not more items than that: the call succeeds, and its result is the same whatever the item was. -/
theorem C84_stack_skips_fails (x y v0 : Arr Nat) (filler : Nat) (hs : v0.shape = []) (i : Nat) (hi : 2 ≤ i) :
    ∃ cfg : StackCfg Nat Nat, cfg.expected = some 2 ∧
      (stack cfg [(0, v0), (i, x)]).result.isSome ∧
      (stack cfg [(0, v0), (i, x)]).result = (stack cfg [(0, v0), (i, y)]).result ∧
      (stack cfg [(0, v0), (i, x)]).result.map (fun r => r.length) = some 1 := by
  refine ⟨⟨fun k => some (100, k), some 2, 0, fun _ => some filler, false, false, fun _ => 0⟩, rfl, ?_⟩
  have h0 : i ≠ 0 := by omega
  have h1 : ¬ (0 = i) := fun h => h0 h.symm
  have hcoll : ∀ z : Arr Nat, collect (fun k => some (100, k)) [(0, v0), (i, z)] [] [] = some ([], [(100, [(0, v0), (i, z)])]) := by
    intro z; simp [collect, Assoc.get, put, keys, h0, h1]
  have hss : ∃ o, setSlice (⟨v0.shape.insertIdx (insertPos v0.shape.length 0) 2, fun _ => filler⟩ : Arr Nat) 0 0 v0 = some o := by
    simp [setSlice, hs, insertPos]
  obtain ⟨o, ho⟩ := hss
  have hone : ∀ z : Arr Nat, stackOne 0 2 (some filler) [(0, v0), (i, z)] = some o := by
    intro z
    simp only [stackOne, List.length_cons, List.length_nil, fillIn, ho]
    simp [hi]
  have hres : ∀ z : Arr Nat, (stack (⟨fun k => some (100, k), some 2, 0, fun _ => some filler, false, false, fun _ => 0⟩ : StackCfg Nat Nat) [(0, v0), (i, z)]).result = some [(100, o)] := by
    intro z
    simp only [stack, hcoll z, expectedCount, ordered, Bool.false_eq_true, if_false, stackAll, hone z]
    rfl
  rw [hres x, hres y]
  simp

/-- C84 (finding): with a filler and the last axis given as -1, vectors cannot be stacked unless their length
happens to be the count: the axis is inserted into the shape one place further left than it is filled. Without
a filler the same call succeeds. -/
theorem C84_stack_negative_axis_fails (n d : Nat) (hn : 0 < n) (hd : d ≠ n) (g : Group α) (hlen : g.length = n)
    (hk : keys g = List.range n) (hsh : ∀ i v, (i, v) ∈ g → v.shape = [d]) (x : α) :
    stackOne (-1) n (some x) g = none ∧ (stackOne (-1) n none g).isSome := by
  cases g with
  | nil => simp at hlen; omega
  | cons p g' =>
    obtain ⟨i0, v0⟩ := p
    have hv0 : v0.shape = [d] := hsh i0 v0 (List.mem_cons_self ..)
    have hi0 : i0 = 0 := by
      obtain ⟨m, rfl⟩ : ∃ m, n = m + 1 := ⟨n - 1, by omega⟩
      simp only [keys, List.map_cons, List.range_succ_eq_map, List.cons.injEq] at hk
      exact hk.1
    constructor
    · simp only [stackOne]
      rw [if_neg (by omega)]
      simp only [fillIn]
      rw [if_neg (by omega)]
      have : setSlice (⟨v0.shape.insertIdx (insertPos v0.shape.length (-1)) n, fun _ => x⟩ : Arr α) (-1) i0 v0 = none := by
        have hp : insertPos [d].length (-1) = 0 := rfl
        simp only [hv0, hp, List.insertIdx_zero]
        simp only [setSlice, List.length_cons, List.length_nil]
        simp only [hv0]
        simp
        exact fun _ h => hd h.symm
      rw [this]
    · have hperm : (keys ((i0, v0) :: g')).isPerm (List.range n) = true := by
        rw [hk, List.isPerm_iff]
      simp only [stackOne, hperm, if_true]
      have hnd : (keys ((i0, v0) :: g')).Nodup := by rw [hk]; exact List.nodup_range
      have hall : ∀ j, j < n → ∃ w, Assoc.get ((i0, v0) :: g') j = some w := fun j hj =>
        (mem_keys_iff _ _).mp (by rw [hk]; exact List.mem_range.mpr hj)
      obtain ⟨f1, f2⟩ := filterMap_get_range _ n hall
      cases hits : (List.range n).filterMap fun i => Assoc.get ((i0, v0) :: g') i with
      | nil => rw [hits] at f1; simp at f1; omega
      | cons y rest =>
        have hshape : ∀ z ∈ y :: rest, z.shape = [d] := fun z hz => by
          rw [← hits] at hz
          obtain ⟨j, _, hj⟩ := List.mem_filterMap.mp hz
          exact hsh j z (mem_of_get _ _ _ hj)
        simp only [npStack]
        have hallb : (y :: rest).all (fun b => b.shape == y.shape) = true :=
          List.all_eq_true.mpr fun z hz => by simp [hshape z hz, hshape y (List.mem_cons_self ..)]
        rw [hallb, hshape y (List.mem_cons_self ..)]
        simp [npAxis]

/-! ## Streaming -/

/-- The part of `a` in a block. -/
def blockOf (a : Arr α) (block : Block) : Arr α :=
  ⟨block.map fun se => se.2 - se.1, fun idx => a.val (List.zipWith (fun i se => i + se.1) idx block)⟩

/-- C84: the callback of the streaming stack returns for a shard the shape of the shard only if the shard is
whole along every axis but the stacking axis. -/
theorem C84_stream_shape (items : List (Arr α)) (axis : Nat) (sh : List Nat) (hsh : ∀ a ∈ items, a.shape = sh)
    (hax : axis ≤ sh.length) (block : Block) (hb : block.length = sh.length + 1) (s e : Nat)
    (hse : block[axis]? = some (s, e)) (hlt : s < e) (he : e ≤ items.length) :
    ∃ out, streamShard items axis block = some out ∧
      (out.shape = (block.map fun se => se.2 - se.1) ↔ ((block.eraseIdx axis).map fun se => se.2 - se.1) = sh) := by
  have hget : block.getD axis (0, 0) = (s, e) := by simp [List.getD, hse]
  have hlen : ((items.take e).drop s).length = e - s := by
    rw [List.length_drop, List.length_take]; omega
  unfold streamShard
  simp only [hget]
  cases hl : (items.take e).drop s with
  | nil => rw [hl] at hlen; simp at hlen; omega
  | cons x rest =>
    rw [hl] at hlen
    have hin : ∀ y ∈ x :: rest, y.shape = sh := fun y hy => by
      rw [← hl] at hy
      exact hsh y (List.mem_of_mem_take (List.mem_of_mem_drop hy))
    have hx := hin x (List.mem_cons_self ..)
    have hallb : (x :: rest).all (fun b => b.shape == x.shape) = true :=
      List.all_eq_true.mpr fun y hy => by simp [hin y hy, hx]
    have hax' : npAxis x.shape.length (axis : Int) = some axis := by
      unfold npAxis; rw [hx, if_pos (by omega)]; simp
    simp only [npStack, hallb, if_true, hax', Option.map_some]
    refine ⟨_, rfl, ?_⟩
    simp only [hx, hlen]
    have hb2 : block = (block.eraseIdx axis).insertIdx axis (s, e) := (insert_erase _ _ _ hse).symm
    have hmap : (block.map fun se => se.2 - se.1) =
        ((block.eraseIdx axis).map fun se => se.2 - se.1).insertIdx axis (e - s) := by
      conv => lhs; rw [hb2]
      rw [map_insert]
    rw [hmap]
    constructor
    · intro h
      have := congrArg (fun l => l.eraseIdx axis) h
      simpa [List.eraseIdx_insertIdx_self] using this.symm
    · intro h
      rw [h]

/-- C84: for such shards the callback returns the values of the stack. -/
theorem C84_stream_values (items : List (Arr α)) (axis : Nat) (full out : Arr α) (block : Block)
    (s e : Nat) (hse : block[axis]? = some (s, e)) (he : e ≤ items.length) (sh : List Nat)
    (hsh : ∀ a ∈ items, a.shape = sh) (hax : axis ≤ sh.length)
    (hwhole : block.eraseIdx axis = sh.map fun d => (0, d))
    (hf : npStack items axis = some full) (ho : streamShard items axis block = some out)
    (i : Nat) (hi : i < e - s) (idx : List Nat) (hidx : idx.length = sh.length) :
    out.val (idx.insertIdx axis i) = (blockOf full block).val (idx.insertIdx axis i) := by
  have hget : block.getD axis (0, 0) = (s, e) := by simp [List.getD, hse]
  unfold streamShard at ho
  simp only [hget] at ho
  have hblen : axis < block.length := by
    obtain ⟨h, _⟩ := List.getElem?_eq_some_iff.mp hse; exact h
  have hlt : s + i < items.length := by omega
  have hnp : npAxis sh.length (axis : Int) = some axis := by
    unfold npAxis; rw [if_pos (by omega)]; simp
  have hv : ((items.take e).drop s)[i]? = items[s + i]? := by
    rw [List.getElem?_drop, List.getElem?_take, if_pos (by omega)]
  have hit : items[s + i]? = some items[s + i] := List.getElem?_eq_getElem hlt
  have hshp := hsh _ (List.getElem_mem hlt)
  have h1 := (npStack_spec _ _ out ho i items[s + i] (by rw [hv, hit]) axis (by rw [hshp]; exact hnp)).2
  have h2 := (npStack_spec _ _ full hf (s + i) items[s + i] hit axis (by rw [hshp]; exact hnp)).2
  rw [h1 idx (by rw [hshp]; exact hidx)]
  have hb2 : block = (sh.map fun d => (0, d)).insertIdx axis (s, e) := by
    rw [← hwhole]; exact (insert_erase _ _ _ hse).symm
  have hzip : ∀ (l : List Nat) (m : List Nat) (p : Nat), l.length = m.length → p ≤ l.length →
      List.zipWith (fun i (se : Nat × Nat) => i + se.1) (l.insertIdx p i) ((m.map fun d => (0, d)).insertIdx p (s, e)) =
        l.insertIdx p (s + i) := by
    intro l
    induction l with
    | nil =>
      intro m p hm hp
      have : m = [] := List.length_eq_zero_iff.mp hm.symm
      subst this
      have : p = 0 := by simpa using hp
      subst this
      simp [Nat.add_comm]
    | cons y l ih =>
      intro m p hm hp
      cases m with
      | nil => simp at hm
      | cons z m =>
        cases p with
        | zero =>
          simp only [List.insertIdx_zero, List.map_cons, List.zipWith_cons_cons, Nat.add_zero, List.cons.injEq, true_and]
          refine ⟨Nat.add_comm _ _, ?_⟩
          have := ih m 0 (by simpa using hm) (by simp)
          simp only [List.insertIdx_zero, List.zipWith_cons_cons, List.cons.injEq] at this
          exact this.2
        | succ p =>
          simp only [List.map_cons, List.insertIdx_succ_cons, List.zipWith_cons_cons, Nat.add_zero, List.cons.injEq, true_and]
          exact ih m p (by simpa using hm) (by simpa using hp)
  simp only [blockOf]
  rw [hb2, hzip idx sh axis hidx (by omega), h2 idx (by rw [hshp]; exact hidx)]

end Verif.Surgery
