import Verif.Surgery.StackProps

/-!
# Fusing, repeating and renaming parameters
-/
namespace Verif.Surgery
open Verif.Assoc
set_option linter.unusedSectionVars false

variable {κ α : Type} [DecidableEq κ]

/-! ## Specification -/

/-- The length of `items` along an axis, taken together. -/
def total (axis : Nat) (items : List (Arr α)) : Nat := (items.map fun b => b.shape.getD axis 0).sum

/-- `out` is the items, one after the other along the axis: each item is found whole behind those before
it, and nothing is added. -/
def IsConcat (axis : Nat) (items : List (Arr α)) (out : Arr α) : Prop :=
  ∀ before v after, items = before ++ v :: after →
    out.shape = v.shape.set axis (total axis items) ∧
    ∀ idx : List Nat, idx.length = v.shape.length → idx.getD axis 0 < v.shape.getD axis 0 →
      out.val (idx.set axis (total axis before + idx.getD axis 0)) = v.val idx

/-- The value of a list of keys, one by one. -/
def Values (params : List (κ × Arr α)) (sources : List κ) (vals : List (Arr α)) : Prop :=
  vals.length = sources.length ∧ ∀ (i : Nat) k v, sources[i]? = some k → vals[i]? = some v → Assoc.get params k = some v

/-! ## Lemmas -/

theorem locate_append (axis : Nat) (before : List (Arr α)) (v : Arr α) (after : List (Arr α)) (n : Nat)
    (hn : n < v.shape.getD axis 0) : locate axis (before ++ v :: after) (total axis before + n) = some (v, n) := by
  induction before with
  | nil => simp only [List.nil_append, total, List.map_nil, List.sum_nil, Nat.zero_add, locate, hn, if_true]
  | cons b bs ih =>
    simp only [total, List.map_cons, List.sum_cons, List.cons_append, locate] at ih ⊢
    rw [if_neg (by omega)]
    rw [show b.shape.getD axis 0 + (bs.map fun b => b.shape.getD axis 0).sum + n - b.shape.getD axis 0 =
      (bs.map fun b => b.shape.getD axis 0).sum + n by omega]
    exact ih

theorem npConcat_spec (items : List (Arr α)) (axis : Nat) (out : Arr α) (h : npConcat items axis = some out) :
    IsConcat axis items out := by
  cases items with
  | nil => simp [npConcat] at h
  | cons a rest =>
    simp only [npConcat] at h
    split at h
    · rename_i hc
      simp only [Option.some.injEq] at h
      subst h
      intro before v after heq
      have hv : v.shape.set axis 0 = a.shape.set axis 0 := by
        have := List.all_eq_true.mp hc.2 v (by rw [heq]; simp)
        simpa using this
      have hset : ∀ m, a.shape.set axis m = v.shape.set axis m := fun m => by
        have := congrArg (fun l => l.set axis m) hv
        simpa [List.set_set] using this.symm
      have hlen : v.shape.length = a.shape.length := by
        have := congrArg List.length hv
        simpa using this
      refine ⟨hset _, fun idx hidx hlt => ?_⟩
      have hgd : (idx.set axis (total axis before + idx.getD axis 0)).getD axis 0 = total axis before + idx.getD axis 0 := by
        have hai : axis < idx.length := by omega
        simp [List.getD, hai]
      have hl := locate_append axis before v after (idx.getD axis 0) hlt
      rw [← heq] at hl
      simp only [hgd, hl, List.set_set]
      congr 1
      have hai : axis < idx.length := by omega
      simp [List.getD, hai]
    · cases h

theorem mapM_get (params : List (κ × Arr α)) (sources : List κ) (vals : List (Arr α))
    (h : sources.mapM (Assoc.get params) = some vals) : Values params sources vals := by
  induction sources generalizing vals with
  | nil =>
    simp at h; subst h
    exact ⟨rfl, by simp⟩
  | cons k rest ih =>
    rw [List.mapM_cons] at h
    cases hk : Assoc.get params k with
    | none => simp [hk] at h
    | some v =>
      cases hr : rest.mapM (Assoc.get params) with
      | none => simp [hk, hr] at h
      | some vs =>
        simp [hk, hr] at h
        subst h
        obtain ⟨h1, h2⟩ := ih vs hr
        refine ⟨by simp [h1], fun i k' v' hk' hv' => ?_⟩
        cases i with
        | zero => simp at hk' hv'; subst hk'; subst hv'; exact hk
        | succ i => exact h2 i k' v' (by simpa using hk') (by simpa using hv')

theorem mapM_isSome {β γ : Type} (f : β → Option γ) (l : List β) (h : ∀ x ∈ l, ∃ y, f x = some y) :
    ∃ ys, l.mapM f = some ys := by
  induction l with
  | nil => exact ⟨[], by simp⟩
  | cons x l ih =>
    obtain ⟨y, hy⟩ := h x (List.mem_cons_self ..)
    obtain ⟨ys, hys⟩ := ih fun x hx => h x (List.mem_cons_of_mem _ hx)
    exact ⟨y :: ys, by simp [hy, hys]⟩

theorem delAll_get (sources : List κ) (d d' : List (κ × Arr α))
    (h : sources.foldlM (fun d k => if k ∈ keys d then some (Assoc.del d k) else none) d = some d') (k : κ) :
    Assoc.get d' k = if k ∈ sources then none else Assoc.get d k := by
  induction sources generalizing d with
  | nil => simp at h; subst h; simp
  | cons x rest ih =>
    rw [List.foldlM_cons] at h
    by_cases hx : x ∈ keys d
    · simp only [hx, if_true, Option.bind_eq_bind, Option.bind_some] at h
      rw [ih _ h, get_del]
      by_cases h1 : k = x <;> by_cases h2 : k ∈ rest <;> simp [h1, h2]
    · simp [hx] at h

theorem delAll_isSome (sources : List κ) (d : List (κ × Arr α)) (hnd : sources.Nodup) (hin : ∀ k ∈ sources, k ∈ keys d) :
    ∃ d', sources.foldlM (fun d k => if k ∈ keys d then some (Assoc.del d k) else none) d = some d' := by
  induction sources generalizing d with
  | nil => exact ⟨d, rfl⟩
  | cons x rest ih =>
    rw [List.nodup_cons] at hnd
    rw [List.foldlM_cons]
    simp only [hin x (List.mem_cons_self ..), if_true, Option.bind_eq_bind, Option.bind_some]
    refine ih _ hnd.2 fun k hk => ?_
    have hne : k ≠ x := fun h => hnd.1 (h ▸ hk)
    rw [mem_keys_iff, get_del_ne _ hne, ← mem_keys_iff]
    exact hin k (List.mem_cons_of_mem _ hk)

theorem fuseKeys_spec (d d' : List (κ × Arr α)) (sources : List κ) (target : κ) (axis : Nat)
    (h : fuseKeys d sources target axis = some d') :
    ∃ vals fused, Values d sources vals ∧ IsConcat axis vals fused ∧ Assoc.get d' target = some fused ∧
      ∀ k, k ≠ target → Assoc.get d' k = if k ∈ sources then none else Assoc.get d k := by
  unfold fuseKeys at h
  split at h
  · cases h
  · rename_i vals hv
    split at h
    · cases h
    · rename_i fused hf
      split at h
      · cases h
      · rename_i dd hd
        simp only [Option.some.injEq] at h
        subst h
        refine ⟨vals, fused, mapM_get _ _ _ hv, npConcat_spec _ _ _ hf, by simp, fun k hk => ?_⟩
        rw [get_put_ne _ _ hk, delAll_get _ _ _ hd]

/-! ## Fusing by keys -/

/-- C84: fusing by keys, when all the source keys are there, puts under the target key the values of the
sources one after the other, in the given order, removes the sources and leaves everything else alone. -/
theorem C84_fuse_by_keys (sources : List κ) (target : κ) (axis : Nat) (params r : List (κ × Arr α))
    (hall : ∀ k ∈ sources, k ∈ keys params) (h : fuseByKeys sources target axis params = some r) :
    ∃ vals fused, Values params sources vals ∧ IsConcat axis vals fused ∧ Assoc.get r target = some fused ∧
      ∀ k, k ≠ target → Assoc.get r k = if k ∈ sources then none else Assoc.get params k := by
  unfold fuseByKeys at h
  rw [if_pos (List.all_eq_true.mpr fun k hk => by simpa using hall k hk)] at h
  exact fuseKeys_spec _ _ _ _ _ h

/-- C84: when a source key is missing, fusing by keys changes nothing. -/
theorem C84_fuse_by_keys_missing (sources : List κ) (target : κ) (axis : Nat) (params : List (κ × Arr α))
    (k : κ) (hk : k ∈ sources) (hm : k ∉ keys params) : fuseByKeys sources target axis params = some params := by
  unfold fuseByKeys
  rw [if_neg]
  intro hc
  have := List.all_eq_true.mp hc k hk
  exact hm (by simpa using this)

/-- C84: fusing by distinct keys that are all there succeeds when their shapes agree except along the axis. -/
theorem C84_fuse_by_keys_succeeds (sources : List κ) (target : κ) (axis : Nat) (params : List (κ × Arr α))
    (hne : sources ≠ []) (hnd : sources.Nodup) (hall : ∀ k ∈ sources, k ∈ keys params) (sh : List Nat)
    (hax : axis < sh.length)
    (hsh : ∀ k v, k ∈ sources → Assoc.get params k = some v → v.shape.set axis 0 = sh.set axis 0) :
    ∃ r, fuseByKeys sources target axis params = some r := by
  unfold fuseByKeys
  rw [if_pos (List.all_eq_true.mpr fun k hk => by simpa using hall k hk)]
  obtain ⟨vals, hv⟩ := mapM_isSome (Assoc.get params) sources fun k hk => (mem_keys_iff _ _).mp (hall k hk)
  obtain ⟨d, hd⟩ := delAll_isSome sources params hnd hall
  obtain ⟨hlen, hvals⟩ := mapM_get _ _ _ hv
  have hshape : ∀ v ∈ vals, v.shape.set axis 0 = sh.set axis 0 := fun v hvm => by
    obtain ⟨i, hi, hiv⟩ := List.mem_iff_getElem.mp hvm
    have hi' : i < sources.length := by omega
    exact hsh _ v (List.getElem_mem hi') (hvals i _ v (List.getElem?_eq_getElem hi') (by rw [List.getElem?_eq_getElem hi, hiv]))
  unfold fuseKeys
  simp only [hv]
  cases hvc : vals with
  | nil =>
    rw [hvc] at hlen
    exact absurd (List.length_eq_zero_iff.mp hlen.symm) hne
  | cons a rest =>
    rw [hvc] at hshape
    have ha := hshape a (List.mem_cons_self ..)
    have hal : axis < a.shape.length := by
      have := congrArg List.length ha
      simp at this; omega
    have hc : axis < a.shape.length ∧ (a :: rest).all (fun b => b.shape.set axis 0 == a.shape.set axis 0) = true :=
      ⟨hal, List.all_eq_true.mpr fun b hb => by rw [hshape b hb, ha]; simp⟩
    simp only [npConcat]
    rw [if_pos hc]
    simp only [hd]
    exact ⟨_, rfl⟩

/-! ## Fusing by pattern -/

/-- The key `k` is the part `p` of the fused parameter `f`. -/
def Part (classify : κ → Option (κ × Nat)) (params : List (κ × Arr α)) (k f : κ) (p : Nat) : Prop :=
  k ∈ keys params ∧ classify k = some (f, p)

/-- All parts of `f` are there. -/
def Complete (classify : κ → Option (κ × Nat)) (parts : List Nat) (params : List (κ × Arr α)) (f : κ) : Prop :=
  ∀ p ∈ parts, ∃ k, Part classify params k f p

/-- The part `p` of group `f`. -/
def gpart (groups : List (κ × List (Nat × κ))) (f : κ) (p : Nat) : Option κ :=
  Assoc.get ((Assoc.get groups f).getD []) p

theorem fuseGroups_spec (classify : κ → Option (κ × Nat)) (ks : List κ) (groups : List (κ × List (Nat × κ)))
    (hg : (keys groups).Nodup ∧ ∀ f g, Assoc.get groups f = some g → (keys g).Nodup)
    (hinj : ∀ k k' f p, k ∈ ks → k' ∈ ks → classify k = some (f, p) → classify k' = some (f, p) → k = k')
    (hnew : ∀ k f p, k ∈ ks → classify k = some (f, p) → gpart groups f p = none) (hnd : ks.Nodup) :
    ((keys (fuseGroups classify ks groups)).Nodup ∧
      ∀ f g, Assoc.get (fuseGroups classify ks groups) f = some g → (keys g).Nodup) ∧
    ∀ f p k, gpart (fuseGroups classify ks groups) f p = some k ↔
      gpart groups f p = some k ∨ (k ∈ ks ∧ classify k = some (f, p)) := by
  induction ks generalizing groups with
  | nil => exact ⟨hg, by simp [fuseGroups]⟩
  | cons x rest ih =>
    rw [List.nodup_cons] at hnd
    simp only [fuseGroups]
    cases hc : classify x with
    | none =>
      obtain ⟨h1, h2⟩ := ih groups hg (fun a b c d ha hb => hinj a b c d (List.mem_cons_of_mem _ ha) (List.mem_cons_of_mem _ hb))
        (fun a b c ha => hnew a b c (List.mem_cons_of_mem _ ha)) hnd.2
      refine ⟨h1, fun f p k => ?_⟩
      rw [h2]
      constructor
      · rintro (h | ⟨h, h'⟩)
        · exact .inl h
        · exact .inr ⟨List.mem_cons_of_mem _ h, h'⟩
      · rintro (h | ⟨h, h'⟩)
        · exact .inl h
        · rcases List.mem_cons.mp h with rfl | h
          · rw [hc] at h'; cases h'
          · exact .inr ⟨h, h'⟩
    | some fp =>
      obtain ⟨f0, p0⟩ := fp
      have hgp : ∀ f p, gpart (put groups f0 (put ((Assoc.get groups f0).getD []) p0 x)) f p =
          if f = f0 ∧ p = p0 then some x else gpart groups f p := by
        intro f p
        unfold gpart
        rw [get_put]
        by_cases hf : f = f0
        · subst hf
          simp only [if_true, Option.getD_some, true_and, get_put]
        · simp [hf]
      have hgood : (keys (put groups f0 (put ((Assoc.get groups f0).getD []) p0 x))).Nodup ∧
          ∀ f g, Assoc.get (put groups f0 (put ((Assoc.get groups f0).getD []) p0 x)) f = some g → (keys g).Nodup := by
        refine ⟨nodup_put _ _ _ hg.1, fun f g hfg => ?_⟩
        rw [get_put] at hfg
        by_cases hf : f = f0
        · simp only [hf, if_true, Option.some.injEq] at hfg
          subst hfg
          apply nodup_put
          cases hgb : Assoc.get groups f0 with
          | none => simp [keys]
          | some g => simpa using hg.2 f0 g hgb
        · simp only [hf, if_false] at hfg
          exact hg.2 f g hfg
      obtain ⟨h1, h2⟩ := ih _ hgood (fun a b c d ha hb => hinj a b c d (List.mem_cons_of_mem _ ha) (List.mem_cons_of_mem _ hb))
        (fun k f p hk hck => by
          rw [hgp]
          by_cases hfp : f = f0 ∧ p = p0
          · obtain ⟨rfl, rfl⟩ := hfp
            have := hinj x k f p (List.mem_cons_self ..) (List.mem_cons_of_mem _ hk) hc hck
            subst this
            exact absurd hk hnd.1
          · simp only [hfp, if_false]
            exact hnew k f p (List.mem_cons_of_mem _ hk) hck) hnd.2
      refine ⟨h1, fun f p k => ?_⟩
      rw [h2, hgp]
      have hx0 := hnew x f0 p0 (List.mem_cons_self ..) hc
      by_cases hfp : f = f0 ∧ p = p0
      · obtain ⟨rfl, rfl⟩ := hfp
        simp only [and_self, if_true, Option.some.injEq, hx0, reduceCtorEq, false_or, List.mem_cons]
        constructor
        · rintro (rfl | ⟨h, h'⟩)
          · exact ⟨.inl rfl, hc⟩
          · exact ⟨.inr h, h'⟩
        · rintro ⟨rfl | h, h'⟩
          · exact .inl rfl
          · exact .inr ⟨h, h'⟩
      · simp only [hfp, if_false, List.mem_cons]
        constructor
        · rintro (h | ⟨h, h'⟩)
          · exact .inl h
          · exact .inr ⟨.inr h, h'⟩
        · rintro (h | ⟨rfl | h, h'⟩)
          · exact .inl h
          · rw [hc] at h'
            simp only [Option.some.injEq, Prod.mk.injEq] at h'
            exact absurd ⟨h'.1.symm, h'.2.symm⟩ hfp
          · exact .inr ⟨h, h'⟩

/-- A group is fused when it has as many parts as asked for. -/
def fusedGroup (parts : List Nat) (g : List (Nat × κ)) : Prop := g.length = parts.length

theorem mapM_mem (g : List (Nat × κ)) (parts : List Nat) (sources : List κ) (h : parts.mapM (Assoc.get g) = some sources) :
    sources.length = parts.length ∧ (∀ (i : Nat) p k, parts[i]? = some p → sources[i]? = some k → Assoc.get g p = some k) := by
  induction parts generalizing sources with
  | nil => simp at h; subst h; simp
  | cons p rest ih =>
    rw [List.mapM_cons] at h
    cases hk : Assoc.get g p with
    | none => simp [hk] at h
    | some k =>
      cases hr : rest.mapM (Assoc.get g) with
      | none => simp [hk, hr] at h
      | some ss =>
        simp [hk, hr] at h
        subst h
        obtain ⟨h1, h2⟩ := ih ss hr
        refine ⟨by simp [h1], fun i p' k' hp' hk' => ?_⟩
        cases i with
        | zero => simp at hp' hk'; subst hp'; subst hk'; exact hk
        | succ i => exact h2 i p' k' (by simpa using hp') (by simpa using hk')

theorem mapM_source_mem (g : List (Nat × κ)) (parts : List Nat) (sources : List κ) (h : parts.mapM (Assoc.get g) = some sources)
    (k : κ) : k ∈ sources ↔ ∃ p ∈ parts, Assoc.get g p = some k := by
  obtain ⟨hl, hm⟩ := mapM_mem g parts sources h
  constructor
  · intro hk
    obtain ⟨i, hi, rfl⟩ := List.mem_iff_getElem.mp hk
    have hi' : i < parts.length := by omega
    exact ⟨parts[i], List.getElem_mem hi', hm i _ _ (List.getElem?_eq_getElem hi') (List.getElem?_eq_getElem hi)⟩
  · rintro ⟨p, hp, hk⟩
    obtain ⟨i, hi, rfl⟩ := List.mem_iff_getElem.mp hp
    have hi' : i < sources.length := by omega
    have := hm i _ _ (List.getElem?_eq_getElem hi) (List.getElem?_eq_getElem hi')
    rw [hk] at this
    simp only [Option.some.injEq] at this
    rw [this]
    exact List.getElem_mem hi'

/-- Keys that no group touches keep their value; a group that is fused and whose sources and target no other
group touches gives what `fuseKeys` gives. -/
theorem fuseAll_untouched (parts : List Nat) (axis : Nat) (gs : List (κ × List (Nat × κ))) (d r : List (κ × Arr α))
    (h : fuseAll parts axis gs d = some r) (k : κ)
    (hk : ∀ f g, (f, g) ∈ gs → fusedGroup parts g → k ≠ f ∧ ∀ p, Assoc.get g p ≠ some k) :
    Assoc.get r k = Assoc.get d k := by
  induction gs generalizing d with
  | nil => simp [fuseAll] at h; rw [h]
  | cons fg rest ih =>
    obtain ⟨f, g⟩ := fg
    have hrest : ∀ f g, (f, g) ∈ rest → fusedGroup parts g → k ≠ f ∧ ∀ p, Assoc.get g p ≠ some k :=
      fun f g hm => hk f g (List.mem_cons_of_mem _ hm)
    simp only [fuseAll] at h
    split at h
    · rename_i hlen
      obtain ⟨hkf, hkp⟩ := hk f g (List.mem_cons_self ..) hlen
      split at h
      · cases h
      · rename_i sources hs
        split at h
        · cases h
        · rename_i d2 hd2
          rw [ih d2 h hrest]
          obtain ⟨_, _, _, _, _, hoth⟩ := fuseKeys_spec _ _ _ _ _ hd2
          rw [hoth k hkf, if_neg]
          intro hc
          obtain ⟨p, _, hp⟩ := (mapM_source_mem g parts sources hs k).mp hc
          exact hkp p hp
    · exact ih d h hrest

theorem fuseAll_group (parts : List Nat) (axis : Nat) (gs : List (κ × List (Nat × κ))) (d r : List (κ × Arr α))
    (h : fuseAll parts axis gs d = some r) (hnd : (keys gs).Nodup)
    (f : κ) (g : List (Nat × κ)) (hfg : (f, g) ∈ gs) (hlen : fusedGroup parts g)
    (hf : ∀ f' g', (f', g') ∈ gs → f' ≠ f → ∀ p, Assoc.get g' p ≠ some f)
    (hs : ∀ f' g' k, (f', g') ∈ gs → f' ≠ f → (∃ p, Assoc.get g p = some k) → k ≠ f' ∧ ∀ p, Assoc.get g' p ≠ some k) :
    ∃ sources vals fused, parts.mapM (Assoc.get g) = some sources ∧ Values d sources vals ∧ IsConcat axis vals fused ∧
      Assoc.get r f = some fused ∧ ∀ k ∈ sources, k ≠ f → Assoc.get r k = none := by
  induction gs generalizing d with
  | nil => cases hfg
  | cons fg rest ih =>
    obtain ⟨f0, g0⟩ := fg
    simp only [keys, List.map_cons, List.nodup_cons] at hnd
    simp only [fuseAll] at h
    rcases List.mem_cons.mp hfg with heq | hm
    · simp only [Prod.mk.injEq] at heq
      obtain ⟨rfl, rfl⟩ := heq
      have hotherkey : ∀ f' g', (f', g') ∈ rest → f' ≠ f := fun f' g' hm hc =>
        hnd.1 (hc ▸ List.mem_map.mpr ⟨_, hm, rfl⟩)
      rw [if_pos (show g.length = parts.length from hlen)] at h
      split at h
      · cases h
      · rename_i sources hsrc
        split at h
        · cases h
        · rename_i d2 hd2
          obtain ⟨vals, fused, hv, hconc, hget, hoth⟩ := fuseKeys_spec _ _ _ _ _ hd2
          refine ⟨sources, vals, fused, hsrc, hv, hconc, ?_, fun k hk hkf => ?_⟩
          · rw [fuseAll_untouched parts axis rest d2 r h f, hget]
            intro f' g' hm _
            exact ⟨fun hc => hotherkey f' g' hm hc.symm, hf f' g' (List.mem_cons_of_mem _ hm) (hotherkey f' g' hm)⟩
          · obtain ⟨p, _, hp⟩ := (mapM_source_mem g parts sources hsrc k).mp hk
            rw [fuseAll_untouched parts axis rest d2 r h k, hoth k hkf, if_pos hk]
            intro f' g' hm _
            exact hs f' g' k (List.mem_cons_of_mem _ hm) (hotherkey f' g' hm) ⟨p, hp⟩
    · have hne : f0 ≠ f := fun hc => hnd.1 (hc ▸ List.mem_map.mpr ⟨_, hm, rfl⟩)
      have hf' := fun f' g' hm => hf f' g' (List.mem_cons_of_mem _ hm)
      have hs' := fun f' g' k hm => hs f' g' k (List.mem_cons_of_mem _ hm)
      split at h
      · split at h
        · cases h
        · rename_i sources0 hsrc0
          split at h
          · cases h
          · rename_i d2 hd2
            obtain ⟨sources, vals, fused, a1, a2, a3, a4, a5⟩ := ih d2 h hnd.2 hm hf' hs'
            refine ⟨sources, vals, fused, a1, ⟨a2.1, fun i k v hk hv => ?_⟩, a3, a4, a5⟩
            have hgk := a2.2 i k v hk hv
            obtain ⟨p, _, hp⟩ := (mapM_source_mem g parts sources a1 k).mp (List.mem_of_getElem? hk)
            obtain ⟨hk1, hk2⟩ := hs f0 g0 k (List.mem_cons_self ..) hne ⟨p, hp⟩
            obtain ⟨_, _, _, _, _, hoth⟩ := fuseKeys_spec _ _ _ _ _ hd2
            rw [hoth k hk1, if_neg] at hgk
            · exact hgk
            · intro hc
              obtain ⟨p', _, hp'⟩ := (mapM_source_mem g0 parts sources0 hsrc0 k).mp hc
              exact hk2 p' hp'
      · exact ih d h hnd.2 hm hf' hs'

/-- C84: fusing by pattern, when no two parameters are the same part of the same fused parameter and no fused
name is the name of another parameter: a fused parameter all of whose parts are there holds them one after the
other in the order of `unique_parts`; these parts are gone; every other parameter is unchanged. False without
the two conditions: `C84_fuse_same_part_fails`, `C84_fuse_clobbers_fails`. -/
theorem C84_fuse_by_pattern_partial (classify : κ → Option (κ × Nat)) (parts : List Nat) (axis : Nat)
    (params r : List (κ × Arr α)) (hn : (keys params).Nodup) (hp : parts.Nodup)
    (honly : ∀ k f p, classify k = some (f, p) → p ∈ parts)
    (hdist : ∀ k k' f p, Part classify params k f p → Part classify params k' f p → k = k')
    (hfresh : ∀ k f p, Part classify params k f p → f ∈ keys params → ∃ q, classify f = some (f, q))
    (h : fuseByPattern classify parts axis params = some r) :
    (∀ f, Complete classify parts params f → parts ≠ [] →
      ∃ sources vals fused, sources.length = parts.length ∧
        (∀ (i : Nat) k p, sources[i]? = some k → parts[i]? = some p → Part classify params k f p) ∧
        Values params sources vals ∧ IsConcat axis vals fused ∧ Assoc.get r f = some fused ∧
        ∀ k p, Part classify params k f p → k ≠ f → Assoc.get r k = none) ∧
    (∀ k, (∀ f p, Part classify params k f p → ¬ Complete classify parts params f) →
      (¬ Complete classify parts params k) → Assoc.get r k = Assoc.get params k) := by
  obtain ⟨⟨hgn, hgk⟩, hgp⟩ := fuseGroups_spec classify (keys params) [] ⟨by simp [keys], by simp⟩
    (fun k k' f p hk hk' c c' => hdist k k' f p ⟨hk, c⟩ ⟨hk', c'⟩) (by simp [gpart]) hn
  unfold fuseByPattern at h
  have hpart : ∀ f g, (f, g) ∈ fuseGroups classify (keys params) [] → ∀ p k,
      Assoc.get g p = some k ↔ Part classify params k f p := by
    intro f g hfg p k
    have hg := get_of_mem _ hgn f g hfg
    have := hgp f p k
    simp only [gpart, hg, Option.getD_some, get_nil, Option.getD_none, reduceCtorEq, false_or] at this
    exact this
  have hcomp : ∀ f g, (f, g) ∈ fuseGroups classify (keys params) [] →
      (fusedGroup parts g ↔ Complete classify parts params f) := by
    intro f g hfg
    have hkn := hgk f g (get_of_mem _ hgn f g hfg)
    have hsub : ∀ p ∈ keys g, p ∈ parts := fun p hpm => by
      obtain ⟨k, hk⟩ := (mem_keys_iff g p).mp hpm
      exact honly k f p ((hpart f g hfg p k).mp hk).2
    have hlk : (keys g).length = g.length := by simp [keys]
    constructor
    · intro hlen p hpp
      have hpg : p ∈ keys g := Classical.byContradiction fun hno => by
        have h1 := hkn.length_le_of_subset (l₂ := parts.erase p) (fun q hq =>
          (List.mem_erase_of_ne (fun hqp : q = p => hno (hqp ▸ hq))).mpr (hsub q hq))
        rw [List.length_erase_of_mem hpp] at h1
        have := List.length_pos_of_mem hpp
        unfold fusedGroup at hlen
        omega
      obtain ⟨k, hk⟩ := (mem_keys_iff g p).mp hpg
      exact ⟨k, (hpart f g hfg p k).mp hk⟩
    · intro hc
      have hperm : (keys g).Perm parts := by
        rw [List.perm_ext_iff_of_nodup hkn hp]
        intro p
        refine ⟨hsub p, fun hpp => ?_⟩
        obtain ⟨k, hk⟩ := hc p hpp
        exact (mem_keys_iff g p).mpr ⟨k, (hpart f g hfg p k).mpr hk⟩
      have := hperm.length_eq
      unfold fusedGroup; omega
  refine ⟨fun f hc hne => ?_, fun k h1 h2 => ?_⟩
  · obtain ⟨p0, hp0⟩ : ∃ p, p ∈ parts := by
      cases parts with
      | nil => exact absurd rfl hne
      | cons p ps => exact ⟨p, List.mem_cons_self ..⟩
    obtain ⟨k0, hk0⟩ := hc p0 hp0
    have hgp0 := (hgp f p0 k0).mpr (.inr hk0)
    unfold gpart at hgp0
    cases hg : Assoc.get (fuseGroups classify (keys params) []) f with
    | none => simp [hg] at hgp0
    | some g =>
      have hfg := mem_of_get _ _ _ hg
      obtain ⟨sources, vals, fused, a1, a2, a3, a4, a5⟩ := fuseAll_group parts axis _ params r h hgn f g hfg
        ((hcomp f g hfg).mpr hc)
        (fun f' g' hm hne' p hcon => by
          have hP := (hpart f' g' hm p f).mp hcon
          obtain ⟨q, hq⟩ := hfresh k0 f p0 hk0 hP.1
          have := hP.2
          rw [hq] at this
          simp only [Option.some.injEq, Prod.mk.injEq] at this
          exact hne' this.1.symm)
        (fun f' g' k hm hne' ⟨p, hk⟩ => by
          have hP := (hpart f g hfg p k).mp hk
          refine ⟨fun hkf => ?_, fun p' hcon => ?_⟩
          · -- `k` is the target of the other group
            subst hkf
            have hg' : ∃ p'' k'', Part classify params k'' k p'' := by
              cases g' with
              | nil =>
                exfalso
                have hcc := hcomp k [] hm
                -- an empty group does not exist
                have : ∀ (ks : List κ) (gs : List (κ × List (Nat × κ))), (∀ f g, (f, g) ∈ gs → g ≠ []) →
                    ∀ f g, (f, g) ∈ fuseGroups classify ks gs → g ≠ [] := by
                  intro ks
                  induction ks with
                  | nil => intro gs hgs; simpa [fuseGroups] using hgs
                  | cons x xs ihx =>
                    intro gs hgs
                    simp only [fuseGroups]
                    split
                    · exact ihx gs hgs
                    · apply ihx
                      intro f'' g'' hmem
                      have hput : ∀ (m : List (κ × List (Nat × κ))) (a : κ) (v : List (Nat × κ)), (∀ f g, (f, g) ∈ m → g ≠ []) → v ≠ [] →
                          ∀ f g, (f, g) ∈ put m a v → g ≠ [] := by
                        intro m a v hm hv
                        induction m with
                        | nil => intro f g hin; simp [put] at hin; rw [hin.2]; exact hv
                        | cons q m ihm =>
                          intro f g hin
                          by_cases hq : q.1 = a
                          · simp only [put, hq, if_true, List.mem_cons] at hin
                            rcases hin with heq | hin
                            · simp only [Prod.mk.injEq] at heq; rw [heq.2]; exact hv
                            · exact hm f g (List.mem_cons_of_mem _ hin)
                          · simp only [put, hq, if_false, List.mem_cons] at hin
                            rcases hin with heq | hin
                            · exact hm f g (by rw [heq]; exact List.mem_cons_self ..)
                            · exact ihm (fun f g h => hm f g (List.mem_cons_of_mem _ h)) f g hin
                      exact hput gs _ _ hgs (put_ne_nil _ _ _) f'' g'' hmem
                exact this (keys params) [] (by simp) k [] hm rfl
              | cons q g'' =>
                exact ⟨q.1, q.2, (hpart k (q :: g'') hm q.1 q.2).mp (by simp [Assoc.get])⟩
            obtain ⟨p'', k'', hP''⟩ := hg'
            obtain ⟨q, hq⟩ := hfresh k'' k p'' hP'' hP.1
            have := hP.2
            rw [hq] at this
            simp only [Option.some.injEq, Prod.mk.injEq] at this
            exact hne' this.1
          · have hP' := (hpart f' g' hm p' k).mp hcon
            have := hP.2
            rw [hP'.2] at this
            simp only [Option.some.injEq, Prod.mk.injEq] at this
            exact hne' this.1)
      obtain ⟨m1, m2⟩ := mapM_mem g parts sources a1
      refine ⟨sources, vals, fused, m1, fun i k p hk hp' => (hpart f g hfg p k).mp (m2 i p k hp' hk), a2, a3, a4,
        fun k p hkp hkf => a5 k ?_ hkf⟩
      exact (mapM_source_mem g parts sources a1 k).mpr ⟨p, honly k f p hkp.2, (hpart f g hfg p k).mpr hkp⟩
  · refine fuseAll_untouched parts axis _ params r h k fun f g hfg hlen => ⟨fun hkf => ?_, fun p hcon => ?_⟩
    · exact h2 (hkf ▸ (hcomp f g hfg).mp hlen)
    · exact h1 f p ((hpart f g hfg p k).mp hcon) ((hcomp f g hfg).mp hlen)

/-! ## Repeating -/

/-- `out` is `v` with each element repeated `n` times along the axis. -/
def IsRepeat (axis n : Nat) (v out : Arr α) : Prop :=
  out.shape = v.shape.set axis (v.shape.getD axis 0 * n) ∧
  ∀ idx : List Nat, idx.length = v.shape.length → ∀ j, j < n →
    out.val (idx.set axis (idx.getD axis 0 * n + j)) = v.val idx

theorem repeatVal_spec (v out : Arr α) (axis n : Nat) (h : repeatVal v axis n = some out) : IsRepeat axis n v out := by
  unfold repeatVal at h
  split at h
  · rename_i hax
    simp only [Option.some.injEq] at h
    subst h
    refine ⟨rfl, fun idx hidx j hj => ?_⟩
    have hai : axis < idx.length := by omega
    simp only [List.getD, List.getElem?_set_self hai, Option.getD_some, List.set_set]
    have hdiv : ((idx[axis]?).getD 0 * n + j) / n = (idx[axis]?).getD 0 := by
      rw [Nat.mul_comm, Nat.mul_add_div (by omega), Nat.div_eq_of_lt hj, Nat.add_zero]
    rw [hdiv]
    congr 1
    simp [hai]
  · cases h

/-- C84: repeating by pattern repeats the elements of exactly the matched parameters. -/
theorem C84_repeat_by_pattern (m : κ → Bool) (axis n : Nat) (params r : List (κ × Arr α))
    (h : repeatByPattern m axis n params = some r) (k : κ) (v : Arr α) (hk : Assoc.get params k = some v) :
    ∃ w, Assoc.get r k = some w ∧ (m k = false → w = v) ∧ (m k = true → IsRepeat axis n v w) := by
  induction params generalizing r with
  | nil => simp at hk
  | cons kv rest ih =>
    obtain ⟨k0, v0⟩ := kv
    simp only [repeatByPattern] at h
    split at h
    · rename_i v' rest' hv' hrest'
      simp only [Option.some.injEq] at h
      subst h
      by_cases hkk : k0 = k
      · subst hkk
        simp only [Assoc.get, if_true, Option.some.injEq] at hk ⊢
        subst hk
        refine ⟨v', rfl, fun hm => ?_, fun hm => ?_⟩
        · simp [hm] at hv'; exact hv'.symm
        · simp only [hm, if_true] at hv'
          exact repeatVal_spec _ _ _ _ hv'
      · simp only [Assoc.get, hkk, if_false] at hk ⊢
        exact ih rest' hrest' hk
    · cases h

/-- C84: repeating by pattern keeps the keys and their order. -/
theorem C84_repeat_by_pattern_keys (m : κ → Bool) (axis n : Nat) (params r : List (κ × Arr α))
    (h : repeatByPattern m axis n params = some r) : r.map Prod.fst = params.map Prod.fst := by
  induction params generalizing r with
  | nil => simp [repeatByPattern] at h; rw [h]
  | cons kv rest ih =>
    simp only [repeatByPattern] at h
    split at h
    · rename_i v' rest' hv' hrest'
      simp only [Option.some.injEq] at h
      subst h
      simp [ih rest' hrest']
    · cases h

/-- C84: repeating by keys repeats the elements of the named parameters, once if they are named once, and
changes no other. -/
theorem C84_repeat_by_keys (axis n : Nat) (targets : List κ) (hnd : targets.Nodup) (params r : List (κ × Arr α))
    (h : repeatByKeys axis n targets params = some r) (k : κ) :
    (k ∉ targets → Assoc.get r k = Assoc.get params k) ∧
    (k ∈ targets → (Assoc.get params k = none → Assoc.get r k = none) ∧
      ∀ v, Assoc.get params k = some v → ∃ w, Assoc.get r k = some w ∧ IsRepeat axis n v w) := by
  induction targets generalizing params with
  | nil => simp [repeatByKeys] at h; subst h; simp
  | cons t rest ih =>
    rw [List.nodup_cons] at hnd
    simp only [repeatByKeys] at h
    cases ht : Assoc.get params t with
    | none =>
      simp only [ht] at h
      obtain ⟨h1, h2⟩ := ih hnd.2 params h
      refine ⟨fun hk => h1 fun hc => hk (List.mem_cons_of_mem _ hc), fun hk => ?_⟩
      rcases List.mem_cons.mp hk with rfl | hk
      · rw [h1 hnd.1, ht]; simp
      · exact h2 hk
    | some v0 =>
      simp only [ht] at h
      cases hr : repeatVal v0 axis n with
      | none => simp [hr] at h
      | some w0 =>
        simp only [hr] at h
        obtain ⟨h1, h2⟩ := ih hnd.2 _ h
        refine ⟨fun hk => ?_, fun hk => ?_⟩
        · rw [h1 fun hc => hk (List.mem_cons_of_mem _ hc), get_put_ne]
          exact fun hc => hk (hc ▸ List.mem_cons_self ..)
        · by_cases hkt : k = t
          · subst hkt
            rw [h1 hnd.1, ht]
            refine ⟨by simp, fun v hv => ⟨w0, by simp, ?_⟩⟩
            simp only [Option.some.injEq] at hv
            subst hv
            exact repeatVal_spec _ _ _ _ hr
          · rw [get_put_ne _ _ hkt] at h2
            exact h2 ((List.mem_cons.mp hk).resolve_left hkt)

/-- C84 (finding): a key named twice is repeated twice. -/
theorem C84_repeat_twice_fails (axis n : Nat) (k : κ) (v : Arr α) (hax : axis < v.shape.length) :
    ∃ w, repeatByKeys axis n [k, k] [(k, v)] = some [(k, w)] ∧ w.shape = v.shape.set axis (v.shape.getD axis 0 * n * n) := by
  have h1 : repeatVal v axis n = some ⟨v.shape.set axis (v.shape.getD axis 0 * n), fun idx => v.val (idx.set axis (idx.getD axis 0 / n))⟩ := by
    simp [repeatVal, hax]
  simp only [repeatByKeys, Assoc.get, if_true, h1, put]
  simp only [repeatVal, List.length_set, hax, if_true]
  refine ⟨_, rfl, ?_⟩
  simp only [List.set_set]
  simp [List.getD, hax]

/-! ## Renaming -/

theorem rename_get {ν : Type} (rules : List (κ → κ)) (params acc : List (κ × ν)) (k' : κ) :
    Assoc.get (params.foldl (fun result kv => put result (rules.foldl (fun k r => r k) kv.1) kv.2) acc) k' =
      match (params.filter fun kv => decide (rules.foldl (fun k r => r k) kv.1 = k')).getLast? with
      | some kv => some kv.2
      | none => Assoc.get acc k' := by
  induction params generalizing acc with
  | nil => simp
  | cons kv rest ih =>
    rw [List.foldl_cons, ih, get_put]
    by_cases hk : rules.foldl (fun k r => r k) kv.1 = k'
    · simp only [hk, List.filter_cons, decide_true, if_true]
      rw [List.getLast?_cons]
      cases hl : (rest.filter fun kv => decide (rules.foldl (fun k r => r k) kv.1 = k')).getLast? with
      | none => simp
      | some x => simp
    · simp only [hk, List.filter_cons, decide_false]
      rw [if_neg (fun h => hk h.symm)]
      simp

/-- The name a parameter gets: every rule, in order. -/
def renamed (rules : List (κ → κ)) (k : κ) : κ := rules.foldl (fun k r => r k) k

/-- C84: renaming that gives no two parameters the same name keeps every parameter, under its new name, and adds none.
Rules are applied in order, each to the result of those before. -/
theorem C84_rename {ν : Type} (rules : List (κ → κ)) (params : List (κ × ν)) (hn : (keys params).Nodup)
    (hinj : ∀ k k', k ∈ keys params → k' ∈ keys params → renamed rules k = renamed rules k' → k = k') (k' : κ) (v : ν) :
    Assoc.get (rename rules params) k' = some v ↔ ∃ k, (k, v) ∈ params ∧ renamed rules k = k' := by
  unfold rename
  rw [rename_get]
  cases hl : (params.filter fun kv => decide (rules.foldl (fun k r => r k) kv.1 = k')).getLast? with
  | none =>
    simp only [get_nil, reduceCtorEq, false_iff, not_exists, not_and]
    intro k hk hr
    have : (params.filter fun kv => decide (rules.foldl (fun k r => r k) kv.1 = k')) = [] := List.getLast?_eq_none_iff.mp hl
    have hm : (k, v) ∈ params.filter fun kv => decide (rules.foldl (fun k r => r k) kv.1 = k') :=
      List.mem_filter.mpr ⟨hk, by simpa [renamed] using hr⟩
    rw [this] at hm; cases hm
  | some kv =>
    obtain ⟨k1, v1⟩ := kv
    have hm := List.mem_filter.mp (List.mem_of_getLast? hl)
    have hr1 : renamed rules k1 = k' := by simpa [renamed] using hm.2
    simp only [Option.some.injEq]
    constructor
    · rintro rfl; exact ⟨k1, hm.1, hr1⟩
    · rintro ⟨k, hk, hr⟩
      have := hinj k k1 (List.mem_map.mpr ⟨_, hk, rfl⟩) (List.mem_map.mpr ⟨_, hm.1, rfl⟩) (by rw [hr, hr1])
      subst this
      have h1 := get_of_mem _ hn _ _ hk
      have h2 := get_of_mem _ hn _ _ hm.1
      rw [h2] at h1
      simpa using h1

/-- C84 (finding): when two parameters get the same name, the later one silently replaces the earlier. -/
theorem C84_rename_collision_fails {ν : Type} (rules : List (κ → κ)) (k1 k2 : κ) (v1 v2 : ν)
    (h : renamed rules k1 = renamed rules k2) :
    rename rules [(k1, v1), (k2, v2)] = [(renamed rules k2, v2)] := by
  unfold renamed at h
  simp [rename, renamed, h, put]

/-! ## Findings about fusing -/

/-- C84 (finding): two parameters that are the same part of the same fused parameter: only the last is fused,
the other stays behind, and nothing is reported. (A name that contains unique parts twice gives this: with the
parts `a` and `b`, `x.a.a` and `x.a.b` are both the part `a` of `x.f.f`.) -/
theorem C84_fuse_same_part_fails (x y z : Arr α) (e f : Nat) (hy : y.shape = [e]) (hz : z.shape = [f]) :
    ∃ r, fuseByPattern (fun k : Nat => if k = 0 ∨ k = 1 then some (9, 0) else if k = 2 then some (9, 1) else none) [0, 1] 0
      [(0, x), (1, y), (2, z)] = some r ∧ Assoc.get r 0 = some x ∧
      ∃ w, Assoc.get r 9 = some w ∧ w.shape = [e + f] := by
  simp [fuseByPattern, fuseGroups, keys, fuseAll, Assoc.get, put, fuseKeys, npConcat, hy, hz, Assoc.del]

/-- C84 (finding): a parameter that already has the name of the fused parameter is silently replaced. -/
theorem C84_fuse_clobbers_fails (sources : List κ) (target : κ) (axis : Nat) (params r : List (κ × Arr α))
    (hall : ∀ k ∈ sources, k ∈ keys params) (h : fuseByKeys sources target axis params = some r)
    (w : Arr α) (hw : Assoc.get params target = some w) (_ht : target ∉ sources)
    (hsz : ∀ vals, Values params sources vals → total axis vals ≠ w.shape.getD axis 0) : Assoc.get r target ≠ some w := by
  obtain ⟨vals, fused, hv, hc, hg, _⟩ := C84_fuse_by_keys sources target axis params r hall h
  rw [hg]
  intro hcon
  simp only [Option.some.injEq] at hcon
  subst hcon
  cases hvc : vals with
  | nil =>
    rw [hvc] at hv
    have hs : sources = [] := List.length_eq_zero_iff.mp (by have := hv.1; simpa using this.symm)
    unfold fuseByKeys at h
    simp [hs, fuseKeys, npConcat] at h
  | cons a rest =>
    have := (hc [] a rest (by simp [hvc])).1
    have h2 := hsz vals hv
    have hax : axis < a.shape.length := by
      unfold fuseByKeys at h
      rw [if_pos (List.all_eq_true.mpr fun k hk => by simpa using hall k hk)] at h
      unfold fuseKeys at h
      split at h
      · cases h
      · rename_i vals' hv'
        split at h
        · cases h
        · rename_i f' hf'
          have hv2 := mapM_get _ _ _ hv'
          have heq : vals' = vals := by
            apply List.ext_getElem? 
            intro i
            by_cases hi : i < sources.length
            · have h1 : i < vals'.length := by rw [hv2.1]; exact hi
              have h2' : i < vals.length := by rw [hv.1]; exact hi
              have e1 := hv2.2 i _ _ (List.getElem?_eq_getElem hi) (List.getElem?_eq_getElem h1)
              have e2 := hv.2 i _ _ (List.getElem?_eq_getElem hi) (List.getElem?_eq_getElem h2')
              rw [e1] at e2
              rw [List.getElem?_eq_getElem h1, List.getElem?_eq_getElem h2', e2]
            · rw [List.getElem?_eq_none (by rw [hv2.1]; omega), List.getElem?_eq_none (by rw [hv.1]; omega)]
          rw [heq, hvc] at hf'
          simp only [npConcat] at hf'
          split at hf'
          · rename_i hcc; exact hcc.1
          · cases hf'
    rw [this] at h2
    apply h2
    simp [List.getD, hax]

/-! ## The hypotheses can be met -/

/-- A vector of length 2. -/
def vec (a b : Nat) : Arr Nat := ⟨[2], fun idx => if idx = [0] then a else b⟩

/-- Two stacks of two, with a parameter left alone: keys 10, 11 and 20, 21 are the items of stacks 1 and 2. -/
def cfg0 : StackCfg Nat Nat :=
  ⟨fun k => if 10 ≤ k then some (k / 10, k % 10) else none, none, 0, fun _ => none, false, false, fun _ => 8⟩

def params0 : List (Nat × Arr Nat) := [(10, vec 1 2), (7, vec 0 0), (21, vec 7 8), (11, vec 3 4), (20, vec 5 6)]

/-- C84: a dictionary with two stacks and another parameter can be stacked, with and without padding; two parameters can be fused, by
keys and by pattern; one can be repeated; and names can be exchanged. -/
theorem C84_nonvacuous :
    ((stack cfg0 params0).result.map fun r => r.map fun kv => (kv.1, kv.2.shape, kv.2.val [1, 0])) =
      some [(7, [2], 0), (1, [2, 2], 3), (2, [2, 2], 7)] ∧
    ((fuseByKeys [11, 10] 5 0 params0).map fun r => r.map fun kv => (kv.1, kv.2.shape, kv.2.val [2])) =
      some [(7, [2], 0), (21, [2], 8), (20, [2], 6), (5, [4], 1)] ∧
    ((fuseByPattern cfg0.classify [0, 1] 0 params0).map fun r => r.map fun kv => (kv.1, kv.2.shape, kv.2.val [2])) =
      some [(7, [2], 0), (1, [4], 3), (2, [4], 7)] ∧
    ((repeatByKeys 0 3 [10] params0).map fun r => (r.map fun kv => (kv.1, kv.2.shape, kv.2.val [2])).head?) =
      some (some (10, [6], 1)) ∧
    ((repeatByPattern (fun k => k == 10) 0 3 params0).map fun r => (r.map fun kv => (kv.1, kv.2.shape, kv.2.val [2])).head?) =
      some (some (10, [6], 1)) ∧
    ((stack { cfg0 with expected := some 3, filler := fun _ => some 99, axis := 1 } params0).result.map fun r =>
      r.map fun kv => (kv.1, kv.2.shape, kv.2.val [1, 0], kv.2.val [1, 2])) =
      some [(7, [2], 0, 0), (1, [2, 3], 2, 99), (2, [2, 3], 6, 99)] ∧
    rename [fun k => if k = 1 then 3 else k, fun k => if k = 2 then 1 else k, fun k => if k = 3 then 2 else k] [(1, 'a'), (2, 'b')] =
      [(2, 'a'), (1, 'b')] := by
  refine ⟨by decide, by decide, by decide, by decide, by decide, by decide, by decide⟩

end Verif.Surgery
