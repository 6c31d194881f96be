import Verif.PyTree.PartialProps

/-!
# Property C85: restoring with placeholders
-/

namespace Verif.PyTree

open Verif Verif.Trees Verif.TreeMetadata

/-! ### Specification -/

/-- All keys of the path are keys of dictionaries. -/
def DictPath (q : List Key) : Prop := ∀ k ∈ q, ∃ s, k = .dict (.str s)

/-- The item is similar to the saved tree, but may have placeholders where the saved tree has nothing, if they are in dictionaries only. -/
def SimilarUpToPlaceholders {V α} (i : Tree (Option α)) (t : Tree V) : Prop := ∀ q,
  (i.plain.at_ q).map nodeKind = (t.plain.at_ q).map nodeKind ∨ (i.plain.at_ q = some (.leaf none) ∧ t.plain.at_ q = none ∧ DictPath q)

/-- `r` is the item `i` with the values of `t`, except for the placeholders, which stay. -/
structure RestoredUpToPlaceholders {V α} (t : Tree V) (i : Tree (Option α)) (r : Tree (Option V)) : Prop where
  nodes : ∀ p kd f, i.at_ p = some (.node kd f) → ∃ f', r.at_ p = some (.node kd f') ∧ f'.keys = f.keys
  placeholders : ∀ p, i.at_ p = some (.leaf none) → r.at_ p = some (.leaf none)
  leaves : ∀ p a, i.at_ p = some (.leaf (some a)) →
    ∃ q u, strPath q = strPath p ∧ t.at_ q = some u ∧ u.emptyOrLeaf = true ∧ r.at_ p = some (Tree.expected u)

/-! ### Putting placeholders -/

/-- What is at the root: a value, or a node of some kind. -/
def top {α} : Tree α → Kind ⊕ α
  | .leaf a => .inr a
  | .node k _ => .inl k

theorem dict_key {k : Key} (h : ∃ s, k = .dict (.str s)) : Key.dict (.str k.str) = k := by
  obtain ⟨s, rfl⟩ := h
  rfl

theorem put_some : ∀ (p : List Key) (t : Tree (Option P)), DictPath p → p ≠ [] →
    (∀ p' k r, p = p' ++ k :: r → ∃ f, t.at_ p' = some (.node .dict f)) → ∃ t', putPlaceholder t p = some t'
  | [], _, _, h, _ => absurd rfl h
  | [k], t, hd, _, h => by
    obtain ⟨f, hf⟩ := h [] k [] rfl
    cases hf
    exact ⟨_, rfl⟩
  | k :: k' :: p, t, hd, _, h => by
    obtain ⟨f, hf⟩ := h [] k (k' :: p) rfl
    cases hf
    have hk := dict_key (hd k (by simp))
    have hc : ∃ c, f.get k = some c := by
      obtain ⟨g, hg⟩ := h [k] k' p rfl
      simp only [Tree.at_, Option.bind_eq_some_iff] at hg
      obtain ⟨c, hc, -⟩ := hg
      exact ⟨c, hc⟩
    obtain ⟨c, hc⟩ := hc
    obtain ⟨c', hc'⟩ := put_some (k' :: p) c (fun x hx => hd x (List.mem_cons_of_mem _ hx)) (by simp) (by
      intro p' k2 r e
      obtain ⟨g, hg⟩ := h (k :: p') k2 r (by rw [e]; rfl)
      simp only [Tree.at_, hc, Option.bind_some] at hg
      exact ⟨g, hg⟩)
    exact ⟨.node .dict (f.put k c'), by simp [putPlaceholder, hk, hc, hc']⟩

/-- If a placeholder can be put, the nodes on the path are dictionaries, as long as the keys are those of dictionaries. -/
theorem put_dicts : ∀ (p : List Key) (t t' : Tree (Option P)), putPlaceholder t p = some t' → ∀ p' k r, p = p' ++ k :: r → DictPath p' →
    ∃ f, t.at_ p' = some (.node .dict f)
  | [], _, _, h, _, _, _, _, _ => by cases h
  | [k], t, t', h, p', k2, r, e, _ => by
    cases p' with
    | cons a p' => simp at e
    | nil =>
      simp only [putPlaceholder] at h
      split at h
      · exact ⟨_, rfl⟩
      · cases h
  | k :: k' :: p, t, t', h, p', k2, r, e, hd => by
    simp only [putPlaceholder] at h
    split at h
    · rename_i f
      simp only [Option.bind_eq_bind, Option.bind_eq_some_iff, Option.pure_def, Option.some.injEq] at h
      obtain ⟨c, hc, c', hc', -⟩ := h
      cases p' with
      | nil => exact ⟨_, rfl⟩
      | cons a p' =>
        simp only [List.cons_append, List.cons.injEq] at e
        obtain ⟨rfl, e⟩ := e
        rw [dict_key (hd k (by simp))] at hc
        obtain ⟨g, hg⟩ := put_dicts (k' :: p) c c' hc' p' k2 r e (fun x hx => hd x (List.mem_cons_of_mem _ hx))
        exact ⟨g, by simp [Tree.at_, hc, hg]⟩
    · cases h

/-- What a placeholder changes. -/
theorem put_at : ∀ (p : List Key) (t t' : Tree (Option P)), DictPath p → putPlaceholder t p = some t' → ∀ q,
    (q = p → t'.at_ q = some (.leaf none)) ∧ (p <+: q → q ≠ p → t'.at_ q = none) ∧ (¬ p <+: q → (t'.at_ q).map top = (t.at_ q).map top)
  | [], _, _, _, h, _ => by cases h
  | [k], t, t', hd, h, q => by
    have hk := dict_key (hd k (by simp))
    simp only [putPlaceholder] at h
    split at h
    · rename_i f
      rw [hk] at h
      cases h
      refine ⟨?_, ?_, ?_⟩
      · rintro rfl
        simp [Tree.at_, Forest.put_get_self]
      · rintro ⟨r, rfl⟩ hne
        cases r with
        | nil => simp at hne
        | cons a r => simp [Tree.at_, Forest.put_get_self]
      · intro hnp
        cases q with
        | nil => rfl
        | cons a q =>
          have : a ≠ k := by
            rintro rfl
            exact hnp ⟨q, rfl⟩
          simp [Tree.at_, Forest.put_get_ne _ _ this]
    · cases h
  | k :: k' :: p, t, t', hd, h, q => by
    have hk := dict_key (hd k (by simp))
    simp only [putPlaceholder] at h
    split at h
    · rename_i f
      rw [hk] at h
      simp only [Option.bind_eq_bind, Option.bind_eq_some_iff, Option.pure_def, Option.some.injEq] at h
      obtain ⟨c, hc, c', hc', rfl⟩ := h
      cases q with
      | nil => simp [Tree.at_, top]
      | cons a q =>
        by_cases ha : a = k
        · subst ha
          obtain ⟨h1, h2, h3⟩ := put_at (k' :: p) c c' (fun x hx => hd x (List.mem_cons_of_mem _ hx)) hc' q
          have e1 : (Tree.node .dict (f.put a c')).at_ (a :: q) = c'.at_ q := by simp [Tree.at_, Forest.put_get_self]
          have e2 : (Tree.node .dict f).at_ (a :: q) = c.at_ q := by simp [Tree.at_, hc]
          rw [e1, e2]
          refine ⟨fun e => h1 (List.cons.inj e).2, ?_, ?_⟩
          · intro e hne
            exact h2 (List.cons_prefix_cons.mp e).2 (fun e => hne (by rw [e]))
          · intro e
            exact h3 (fun e' => e (List.cons_prefix_cons.mpr ⟨rfl, e'⟩))
        · refine ⟨fun e => absurd (List.cons.inj e).1 ha, fun e => absurd (List.cons_prefix_cons.mp e).1.symm ha, fun _ => ?_⟩
          simp [Tree.at_, Forest.put_get_ne _ _ ha]
    · cases h

theorem putF_pl {α} (k : Key) (c : Tree α) (hc : Tree.Pl c) : ∀ f : Forest α, Forest.Pl f → Forest.Pl (f.put k c)
  | .nil, _ => ⟨hc, trivial⟩
  | .cons k' t r, h => by
    simp only [Forest.put]
    split
    · exact ⟨hc, h.2⟩
    · exact ⟨h.1, putF_pl k c hc r h.2⟩

theorem putF_keys {α} (k : Key) (c : Tree α) : ∀ f : Forest α, (f.put k c).keys = if k ∈ f.keys then f.keys else f.keys ++ [k]
  | .nil => rfl
  | .cons k' t r => by
    simp only [Forest.put, Forest.keys]
    by_cases h : k' = k
    · simp [h, Forest.keys]
    · simp only [h, if_false, Forest.keys, putF_keys k c r, List.mem_cons, Ne.symm h, false_or]
      split <;> rfl

theorem put_dict_pl {α} (k : Key) (hk : ∃ s, k = .dict (.str s)) (c : Tree α) (hc : Tree.Pl c) (f : Forest α) (h : Tree.Pl (.node .dict f)) :
    Tree.Pl (.node .dict (f.put k c)) := by
  refine ⟨.inr (.inl ⟨rfl, ?_⟩), putF_pl k c hc f h.2⟩
  have hf : (∀ k ∈ f.keys, ∃ s, k = .dict (.str s)) ∧ f.keys.Nodup := by
    rcases h.1 with rfl | h | h
    · simp [Forest.keys]
    · exact h.2
    · cases h.1
  rw [putF_keys]
  split
  · exact hf
  · rename_i hn
    refine ⟨?_, ?_⟩
    · intro k' hk'
      rcases List.mem_append.mp hk' with h | h
      · exact hf.1 k' h
      · rw [List.mem_singleton.mp h]; exact hk
    · rw [List.nodup_append]
      exact ⟨hf.2, by simp, by intro a ha b hb; rw [List.mem_singleton.mp hb]; rintro rfl; exact hn ha⟩

theorem put_pl : ∀ (p : List Key) (t t' : Tree (Option P)), DictPath p → putPlaceholder t p = some t' → Tree.Pl t → Tree.Pl t'
  | [], _, _, _, h, _ => by cases h
  | [k], t, t', hd, h, hp => by
    have hk := dict_key (hd k (by simp))
    simp only [putPlaceholder] at h
    split at h
    · rw [hk] at h
      cases h
      exact put_dict_pl k (hd k (by simp)) (.leaf none) trivial _ hp
    · cases h
  | k :: k' :: p, t, t', hd, h, hp => by
    have hk := dict_key (hd k (by simp))
    simp only [putPlaceholder] at h
    split at h
    · rw [hk] at h
      simp only [Option.bind_eq_bind, Option.bind_eq_some_iff, Option.pure_def, Option.some.injEq] at h
      obtain ⟨c, hc, c', hc', rfl⟩ := h
      exact put_dict_pl k (hd k (by simp)) _ (put_pl (k' :: p) c c' (fun x hx => hd x (List.mem_cons_of_mem _ hx)) hc' (pl_child hp.2 hc)) _ hp
    · cases h

/-- Reports of placeholders that the checkpoint does not have. -/
def IsMissing (x : List Key × Rep Bool) : Prop := x.2 = .onlyL (.leaf true)

theorem patchAll_cons (x : List Key × Rep Bool) (l : List (List Key × Rep Bool)) (t : Tree (Option P)) :
    (IsMissing x → patchAll (x :: l) t = (putPlaceholder t x.1).bind (patchAll l)) ∧ (¬ IsMissing x → patchAll (x :: l) t = none) := by
  obtain ⟨p, r⟩ := x
  constructor
  · intro h
    have : r = .onlyL (.leaf true) := h
    subst this
    rfl
  · intro h
    cases r with
    | onlyL u =>
      cases u with
      | leaf b =>
        cases b with
        | true => exact absurd rfl h
        | false => rfl
      | node => rfl
    | leaves => rfl
    | types => rfl
    | lens => rfl
    | onlyR => rfl

/-- The paths of placeholders: no path goes below another one. -/
def NoneBelow (l : List (List Key × Rep Bool)) : Prop := ∀ x ∈ l, ∀ y ∈ l, x.1 <+: y.1 → x.1 = y.1

theorem patchAll_at : ∀ (l : List (List Key × Rep Bool)) (t t' : Tree (Option P)), NoneBelow l → (∀ x ∈ l, DictPath x.1) → patchAll l t = some t' → ∀ q,
    ((∃ x ∈ l, x.1 = q) → t'.at_ q = some (.leaf none)) ∧ ((∃ x ∈ l, x.1 <+: q ∧ q ≠ x.1) → t'.at_ q = none) ∧
    ((∀ x ∈ l, ¬ x.1 <+: q) → (t'.at_ q).map top = (t.at_ q).map top)
  | [], t, t', _, _, h, q => by
    cases h
    simp
  | x :: l, t, t', hb, hd, h, q => by
    obtain ⟨p1, p2⟩ := patchAll_cons x l t
    by_cases hx : IsMissing x
    · rw [p1 hx, Option.bind_eq_some_iff] at h
      obtain ⟨t1, h1, h2⟩ := h
      obtain ⟨a1, a2, a3⟩ := put_at x.1 t t1 (hd x (by simp)) h1 q
      obtain ⟨b1, b2, b3⟩ := patchAll_at l t1 t' (fun y hy z hz => hb y (List.mem_cons_of_mem _ hy) z (List.mem_cons_of_mem _ hz))
        (fun y hy => hd y (List.mem_cons_of_mem _ hy)) h2 q
      refine ⟨?_, ?_, ?_⟩
      · rintro ⟨y, hy, e⟩
        by_cases hex : ∃ z ∈ l, z.1 = q
        · exact b1 hex
        · rcases List.mem_cons.mp hy with rfl | hy'
          · have h3 : ∀ z ∈ l, ¬ z.1 <+: q := by
              intro z hz hpre
              exact hex ⟨z, hz, by rw [← e]; exact hb z (List.mem_cons_of_mem _ hz) y hy (by rw [e]; exact hpre)⟩
            have h4 := b3 h3
            rw [a1 e.symm] at h4
            cases h5 : t'.at_ q with
            | none => rw [h5] at h4; cases h4
            | some u =>
              rw [h5] at h4
              cases u with
              | leaf a =>
                simp only [Option.map_some, top, Option.some.injEq, Sum.inr.injEq] at h4
                rw [h4]
              | node k f => simp [top] at h4
          · exact absurd ⟨y, hy', e⟩ hex
      · rintro ⟨y, hy, hpre, hne⟩
        by_cases hex : ∃ z ∈ l, z.1 <+: q ∧ q ≠ z.1
        · exact b2 hex
        · rcases List.mem_cons.mp hy with rfl | hy'
          · have h3 : ∀ z ∈ l, ¬ z.1 <+: q := by
              intro z hz hz'
              by_cases hzq : q = z.1
              · apply hne
                rw [hzq] at hpre ⊢
                exact (hb y hy z (List.mem_cons_of_mem _ hz) hpre).symm
              · exact hex ⟨z, hz, hz', hzq⟩
            have h4 := b3 h3
            rw [a2 hpre hne] at h4
            cases h5 : t'.at_ q with
            | none => rfl
            | some u => rw [h5] at h4; cases h4
          · exact absurd ⟨y, hy', hpre, hne⟩ hex
      · intro hno
        rw [b3 (fun y hy => hno y (List.mem_cons_of_mem _ hy)), a3 (hno x (by simp))]
    · rw [p2 hx] at h
      cases h

theorem patchAll_pl : ∀ (l : List (List Key × Rep Bool)) (t t' : Tree (Option P)), (∀ x ∈ l, DictPath x.1) → patchAll l t = some t' → Tree.Pl t → Tree.Pl t'
  | [], t, t', _, h, hp => by cases h; exact hp
  | x :: l, t, t', hd, h, hp => by
    obtain ⟨p1, p2⟩ := patchAll_cons x l t
    by_cases hx : IsMissing x
    · rw [p1 hx, Option.bind_eq_some_iff] at h
      obtain ⟨t1, h1, h2⟩ := h
      exact patchAll_pl l t1 t' (fun y hy => hd y (List.mem_cons_of_mem _ hy)) h2 (put_pl x.1 t t1 (hd x (by simp)) h1 hp)
    · rw [p2 hx] at h
      cases h

theorem top_dict {t : Option (Tree (Option P))} : (∃ f, t = some (.node .dict f)) ↔ t.map top = some (.inl .dict) := by
  cases t with
  | none => simp
  | some u => cases u <;> simp [top]

theorem patchAll_some : ∀ (l : List (List Key × Rep Bool)) (t : Tree (Option P)), NoneBelow l → (∀ x ∈ l, IsMissing x ∧ DictPath x.1 ∧ x.1 ≠ []) →
    (∀ x ∈ l, ∀ p' k r, x.1 = p' ++ k :: r → ∃ f, t.at_ p' = some (.node .dict f)) → ∃ t', patchAll l t = some t'
  | [], t, _, _, _ => ⟨t, rfl⟩
  | x :: l, t, hb, hd, h => by
    obtain ⟨h1, h2, h3⟩ := hd x (by simp)
    obtain ⟨t1, ht⟩ := put_some x.1 t h2 h3 (h x (by simp))
    obtain ⟨t', ht'⟩ := patchAll_some l t1 (fun y hy z hz => hb y (List.mem_cons_of_mem _ hy) z (List.mem_cons_of_mem _ hz))
      (fun y hy => hd y (List.mem_cons_of_mem _ hy)) (by
        intro y hy p' k r e
        rw [top_dict, (put_at x.1 t t1 h2 ht p').2.2, ← top_dict]
        · exact h y (List.mem_cons_of_mem _ hy) p' k r e
        · intro hpre
          have hpre' : x.1 <+: y.1 := hpre.trans ⟨_, e.symm⟩
          have := hb x (by simp) y (List.mem_cons_of_mem _ hy) hpre'
          have hl := hpre.length_le
          rw [this, e] at hl
          simp at hl
          omega)
    exact ⟨t', by rw [(patchAll_cons x l t).1 h1, ht]; exact ht'⟩

/-- If all placeholders can be put, all reports are of missing placeholders, and the nodes on their paths are dictionaries. -/
theorem patchAll_only : ∀ (l : List (List Key × Rep Bool)) (t t' : Tree (Option P)), patchAll l t = some t' → ∀ x ∈ l, IsMissing x
  | [], _, _, _, x, hx => by cases hx
  | y :: l, t, t', h, x, hx => by
    obtain ⟨p1, p2⟩ := patchAll_cons y l t
    by_cases hy : IsMissing y
    · rcases List.mem_cons.mp hx with rfl | hx'
      · exact hy
      · rw [p1 hy, Option.bind_eq_some_iff] at h
        obtain ⟨t1, -, h2⟩ := h
        exact patchAll_only l t1 t' h2 x hx'
    · rw [p2 hy] at h
      cases h

theorem dictPath_of : ∀ (r pre : List Key), DictPath pre → (∀ p' k r', pre ++ r = p' ++ k :: r' → DictPath p' → ∃ s, k = .dict (.str s)) →
    DictPath (pre ++ r)
  | [], pre, h, _ => by simpa using h
  | k :: r, pre, h, hk => by
    have h1 : DictPath (pre ++ [k]) := by
      intro x hx
      rcases List.mem_append.mp hx with h2 | h2
      · exact h x h2
      · rw [List.mem_singleton.mp h2]; exact hk pre k r rfl h
    have := dictPath_of r (pre ++ [k]) h1 (by simpa using hk)
    simpa using this

theorem patchAll_dict : ∀ (l : List (List Key × Rep Bool)) (t t' : Tree (Option P)), patchAll l t = some t' → NoneBelow l →
    (∀ x ∈ l, ∀ p' k r, x.1 = p' ++ k :: r → DictPath p' → (∃ f, t.at_ p' = some (.node .dict f)) → ∃ s, k = .dict (.str s)) → ∀ x ∈ l, DictPath x.1
  | [], _, _, _, _, _, x, hx => by cases hx
  | y :: l, t, t', h, hb, hk, x, hx => by
    have hy := patchAll_only _ _ _ h y (by simp)
    rw [(patchAll_cons y l t).1 hy, Option.bind_eq_some_iff] at h
    obtain ⟨t1, h1, h2⟩ := h
    have hyd : DictPath y.1 := by
      have := dictPath_of y.1 [] (by simp [DictPath]) (by
        intro p' k r e hp'
        exact hk y (by simp) p' k r e hp' (put_dicts y.1 t t1 h1 p' k r e hp'))
      simpa using this
    rcases List.mem_cons.mp hx with rfl | hx'
    · exact hyd
    · refine patchAll_dict l t1 t' h2 (fun z hz w hw => hb z (List.mem_cons_of_mem _ hz) w (List.mem_cons_of_mem _ hw)) ?_ x hx'
      intro z hz p' k r e hp' hf
      refine hk z (List.mem_cons_of_mem _ hz) p' k r e hp' ?_
      rw [top_dict, (put_at y.1 t t1 hyd h1 p').2.2, ← top_dict] at hf
      · exact hf
      · intro hpre
        have hpre' : y.1 <+: z.1 := hpre.trans ⟨_, e.symm⟩
        have := hb y (by simp) z (List.mem_cons_of_mem _ hz) hpre'
        have hl := hpre.length_le
        rw [this, e] at hl
        simp at hl
        omega

mutual
theorem mapPath_pl {α β} (g : List Key → Option (Tree β)) : ∀ (t : Tree α) (pre : List Key) (r : Tree β), Tree.Pl t →
    (∀ p a u, t.at_ p = some (.leaf a) → g (pre ++ p) = some u → Tree.Pl u) → t.Distinct → t.mapPath false g pre = some r → Tree.Pl r
  | .leaf a, pre, r, _, hg, _, h => hg [] a r rfl (by simpa [Tree.mapPath] using h)
  | .node kd f, pre, r, hp, hg, hd, h => by
    simp only [Tree.mapPath, Bool.false_and, Bool.false_eq_true, if_false, Option.map_eq_some_iff] at h
    obtain ⟨f', hf, rfl⟩ := h
    obtain ⟨h1, h2⟩ := mapPathF_pl g f pre f' hp.2 (by
      intro k c hc p a u h3 h4
      exact hg (k :: p) a u (by simp [Tree.at_, hc, h3]) h4) hd hf
    refine ⟨?_, h1⟩
    rw [h2]
    rcases hp.1 with rfl | h | h
    · cases f' with
      | nil => exact .inl rfl
      | cons => simp [Forest.keys] at h2
    · exact .inr (.inl h)
    · exact .inr (.inr h)
theorem mapPathF_pl {α β} (g : List Key → Option (Tree β)) : ∀ (f : Forest α) (pre : List Key) (f' : Forest β), Forest.Pl f →
    (∀ k c, f.get k = some c → ∀ p a u, c.at_ p = some (.leaf a) → g (pre ++ k :: p) = some u → Tree.Pl u) → (Tree.node .dict f).Distinct →
    f.mapPath false g pre = some f' → Forest.Pl f' ∧ f'.keys = f.keys
  | .nil, pre, f', _, _, _, h => by
    simp only [Forest.mapPath, Option.some.injEq] at h
    subst h
    exact ⟨trivial, rfl⟩
  | .cons k t r, pre, f', hp, hg, hd, h => by
    simp only [Forest.mapPath, Option.bind_eq_bind, Option.bind_eq_some_iff, Option.pure_def, Option.some.injEq] at h
    obtain ⟨t', ht, r', hr, rfl⟩ := h
    obtain ⟨hd1, hd2⟩ := hd
    simp only [Forest.keys, List.map_cons, List.nodup_cons] at hd1
    have h1 := mapPath_pl g t (pre ++ [k]) t' hp.1 (by
      intro p a u h3 h4
      exact hg k t (by simp [Forest.get]) p a u h3 (by simpa using h4)) hd2.1 ht
    obtain ⟨h2, h3⟩ := mapPathF_pl g r pre r' hp.2 (by
      intro k' c hc
      refine hg k' c ?_
      have : k ≠ k' := by
        rintro rfl
        exact hd1.1 (List.mem_map.mpr ⟨_, Forest.get_mem hc, rfl⟩)
      simp [Forest.get, this, hc]) ⟨hd1.2, hd2.2⟩ hr
    exact ⟨⟨h1, h2⟩, by simp [Forest.keys, h3]⟩
end

/-! ### The metadata with placeholders -/

mutual
theorem clip_noCustom {α} (ph : α → Bool) : ∀ t : Tree α, Tree.Pl t → (Tree.clip ph t).NoCustom
  | .leaf _, _ => trivial
  | .node k .nil, _ => trivial
  | .node k (.cons k' t r), h => by
    simp only [Tree.clip, Forest.isEmpty, Bool.false_eq_true, if_false]
    refine ⟨?_, clipF_noCustom ph _ h.2⟩
    rcases h.1 with h | ⟨rfl, -⟩ | ⟨rfl, -⟩
    · cases h
    · simp
    · simp
theorem clipF_noCustom {α} (ph : α → Bool) : ∀ f : Forest α, Forest.Pl f → (Forest.clip ph f).NoCustom
  | .nil, _ => trivial
  | .cons _ t r, h => ⟨clip_noCustom ph t h.1, clipF_noCustom ph r h.2⟩
end

/-- The reports that are looped over. -/
def reportsOf {α} (s : Tree (Option α)) (vmt : Py) : List (List Key × Rep Bool) := match difference s vmt with
  | none => []
  | some d => d.reports

theorem reports_true {α} (J : Tree (Option α)) (hJ : Tree.Pl J) (M : Py) (hM : Tree.Pl M) : ∀ x ∈ reportsOf J M,
    x.2.TrueAt (fun _ _ => true) (Tree.clip Option.isNone J) (Tree.clip (fun _ => false) M) x.1 := by
  intro x hx
  simp only [reportsOf] at hx
  cases hd : difference J M with
  | none => rw [hd] at hx; cases hx
  | some d =>
    rw [hd] at hx
    exact C43_sound (fields := fun _ => []) _ _ _ (clip_ok _ _ _ hJ) (clip_ok _ _ _ hM) d hd x hx

theorem reports_all {α} (J : Tree (Option α)) (hJ : Tree.Pl J) (M : Py) (hM : Tree.Pl M) (q : List Key)
    (h : (J.at_ q).map nodeKind ≠ (M.at_ q).map nodeKind) : ∃ x ∈ reportsOf J M, x.1 <+: q := by
  obtain ⟨d, hd, x, hx, hpre⟩ := C43_complete (fields := fun _ => []) (fun _ _ => true) (Tree.clip Option.isNone J) (Tree.clip (fun _ => false) M)
    (clip_ok _ _ _ hJ) (clip_ok _ _ _ hM) (clip_noCustom _ _ hJ) q (by rw [clip_at, clip_at, agree_clip]; exact h)
  have hd' : difference J M = some d := hd
  exact ⟨x, by simp only [reportsOf, hd']; exact hx, hpre⟩

theorem clip_true {α} {u : Option (Tree (Option α))} (h : u.map (Tree.clip Option.isNone) = some (.leaf true)) : u = some (.leaf none) := by
  cases u with
  | none => cases h
  | some u =>
    cases u with
    | leaf a => cases a with
      | none => rfl
      | some a => simp [Tree.clip] at h
    | node k f => cases f <;> simp [Tree.clip, Forest.isEmpty] at h

/-- A missing placeholder: the item has it, the metadata has nothing. -/
theorem missing_true {α} (J : Tree (Option α)) (hJ : Tree.Pl J) (M : Py) (hM : Tree.Pl M) (x : List Key × Rep Bool) (hx : x ∈ reportsOf J M)
    (h : IsMissing x) : J.at_ x.1 = some (.leaf none) ∧ M.at_ x.1 = none := by
  have h1 := reports_true J hJ M hM x hx
  rw [h] at h1
  obtain ⟨h2, h3⟩ := h1
  rw [clip_at] at h2 h3
  exact ⟨clip_true h2, by simpa using h3⟩

/-- The item, apart from its placeholders, agrees with the metadata. -/
def Fits {α} (J : Tree (Option α)) (M : Py) : Prop := ∀ q,
  (J.at_ q).map nodeKind = (M.at_ q).map nodeKind ∨ (J.at_ q = some (.leaf none) ∧ M.at_ q = none ∧ DictPath q)

theorem leaf_below {α} {t : Tree α} {p r : List Key} {a : α} (h : t.at_ p = some (.leaf a)) (hr : r ≠ []) : t.at_ (p ++ r) = none := by
  rw [at_append, h]
  cases r with
  | nil => exact absurd rfl hr
  | cons => rfl

theorem noneBelow_of {α} (J : Tree (Option α)) (l : List (List Key × Rep Bool)) (h : ∀ x ∈ l, J.at_ x.1 = some (.leaf none)) : NoneBelow l := by
  rintro x hx y hy ⟨r, hr⟩
  by_cases h1 : r = []
  · rw [← hr, h1, List.append_nil]
  · have := leaf_below (h x hx) h1
    rw [hr, h y hy] at this
    cases this

/-- Above a path with something there is a node, of the kind of the key. -/
theorem node_above {α} {t : Tree α} {p r : List Key} {k : Key} {v : Tree α} (h : t.at_ (p ++ k :: r) = some v) :
    ∃ kd f c, t.at_ p = some (.node kd f) ∧ f.get k = some c := by
  rw [at_append, Option.bind_eq_some_iff] at h
  obtain ⟨u, hu, h⟩ := h
  cases u with
  | leaf => cases h
  | node kd f =>
    simp only [Tree.at_, Option.bind_eq_some_iff] at h
    obtain ⟨c, hc, -⟩ := h
    exact ⟨kd, f, c, hu, hc⟩

theorem nodeKind_of_get {α} {kd : Kind} {f : Forest α} {k : Key} {c : Tree α} (h : f.get k = some c) : nodeKind (.node kd f) = some kd := by
  cases f with
  | nil => simp [Forest.get] at h
  | cons => rfl

/-- Where the item has a node with children, so has the metadata. -/
theorem fits_node {α} {J : Tree (Option α)} {M : Py} (h : Fits J M) {p : List Key} {kd : Kind} {f : Forest (Option α)} {k : Key}
    {c : Tree (Option α)} (hp : J.at_ p = some (.node kd f)) (hc : f.get k = some c) : ∃ g, M.at_ p = some (.node kd g) := by
  rcases h p with h1 | ⟨h1, -, -⟩
  · rw [hp, Option.map_some, nodeKind_of_get hc] at h1
    cases h2 : M.at_ p with
    | none => rw [h2] at h1; cases h1
    | some w =>
      rw [h2] at h1
      cases w with
      | leaf => simp [nodeKind] at h1
      | node k' g =>
        cases g with
        | nil => simp [nodeKind, Forest.isEmpty] at h1
        | cons =>
          simp only [nodeKind, Forest.isEmpty, Bool.false_eq_true, if_false, Option.map_some, Option.some.injEq] at h1
          subst h1
          exact ⟨_, rfl⟩
  · rw [hp] at h1
    cases h1

theorem pl_dict_key {α} {t : Tree α} (ht : Tree.Pl t) {p : List Key} {kd : Kind} {f : Forest α} {k : Key} {c : Tree α} (hp : t.at_ p = some (.node kd f))
    (hc : f.get k = some c) : (kd = .dict ∧ ∃ s, k = .dict (.str s)) ∨ (kd = .list ∧ (∃ n, k = .seq n) ∧ SeqFrom Key.seq 0 f.keys) := by
  have h := pl_at p t _ ht hp
  have hm := Forest.get_mem hc
  rcases h.1 with rfl | ⟨rfl, h1, -⟩ | ⟨rfl, h1⟩
  · simp [Forest.get] at hc
  · exact .inl ⟨rfl, h1 k hm⟩
  · obtain ⟨j, -, -, e⟩ := seqFrom_mem 0 _ h1 k hm
    exact .inr ⟨rfl, ⟨j, e⟩, h1⟩

/-- If the item fits, all reports are of missing placeholders in dictionaries. -/
theorem fits_reports {α} (J : Tree (Option α)) (hJ : Tree.Pl J) (M : Py) (hM : Tree.Pl M) (h : Fits J M) (x : List Key × Rep Bool)
    (hx : x ∈ reportsOf J M) : IsMissing x ∧ DictPath x.1 := by
  have h1 := reports_true J hJ M hM x hx
  obtain ⟨p, r⟩ := x
  have hdict : (J.at_ p).map nodeKind ≠ (M.at_ p).map nodeKind → J.at_ p = some (.leaf none) ∧ M.at_ p = none ∧ DictPath p := by
    intro hne
    rcases h p with h2 | h2
    · exact absurd h2 hne
    · exact h2
  cases r with
  | leaves a b =>
    have h2 : true = false := h1.2.2
    cases h2
  | types a b =>
    obtain ⟨h2, h3, h4⟩ := h1
    simp only at h2 h3
    rw [clip_at] at h2 h3
    have hag := agree_clip Option.isNone (fun _ => false) (J.at_ p) (M.at_ p)
    rw [h2, h3] at hag
    have hne : (J.at_ p).map nodeKind ≠ (M.at_ p).map nodeKind := by
      intro e
      have := hag.mpr e
      cases a <;> cases b <;> simp_all [Agree]
    have := (hdict hne).2.1
    rw [this] at h3
    cases h3
  | lens m n =>
    obtain ⟨hmn, k, f, g, h2, h3, hk, rfl, rfl⟩ := h1
    simp only at h2 h3
    rw [clip_at, Option.map_eq_some_iff] at h2 h3
    obtain ⟨u, hu, hu'⟩ := h2
    obtain ⟨w, hw, hw'⟩ := h3
    cases u with
    | leaf => cases hu'
    | node ku fu =>
      cases w with
      | leaf => cases hw'
      | node kw fw =>
        have key : ∀ {β} (ph : β → Bool) (k0 : Kind) (f0 : Forest β) (k1 : Kind) (f1 : Forest Bool), Tree.clip ph (.node k0 f0) = .node k1 f1 →
            k0 = k1 ∧ f1.length = f0.length ∧ f0 ≠ .nil := by
          intro β ph k0 f0 k1 f1 e
          simp only [Tree.clip] at e
          split at e
          · cases e
          · next hne =>
            cases e
            refine ⟨rfl, ?_, ?_⟩
            · rw [Forest.length_keys, Forest.length_keys, clipF_keys]
            · rintro rfl; exact hne rfl
        obtain ⟨rfl, l1, n1⟩ := key _ _ _ _ _ hu'
        obtain ⟨rfl, l2, n2⟩ := key _ _ _ _ _ hw'
        have plu := pl_at p J _ hJ hu
        have plw := pl_at p M _ hM hw
        have hl : ∀ {β} (f0 : Forest β), f0 ≠ .nil → Tree.Pl (.node kw f0) → kw = .list ∧ SeqFrom Key.seq 0 f0.keys := by
          intro β f0 hn0 hp0
          rcases hp0.1 with h | ⟨h, -⟩ | h
          · exact absurd h hn0
          · rcases hk with rfl | rfl <;> cases h
          · exact h
        obtain ⟨-, s1⟩ := hl fu n1 plu
        obtain ⟨rfl, s2⟩ := hl fw n2 plw
        exfalso
        apply hmn
        rw [l1, l2]
        refine seq_length s1 s2 ?_
        intro k
        have hJk : J.at_ (p ++ [k]) = fu.get k := by
          rw [at_append, hu]
          simp only [Option.bind_some, Tree.at_]
          cases fu.get k <;> rfl
        have hMk : M.at_ (p ++ [k]) = fw.get k := by
          rw [at_append, hw]
          simp only [Option.bind_some, Tree.at_]
          cases fw.get k <;> rfl
        rcases h (p ++ [k]) with h5 | ⟨h5, -, h6⟩
        · rw [hJk, hMk] at h5
          cases h7 : fu.get k <;> cases h8 : fw.get k <;> simp_all
        · rw [hJk] at h5
          rcases pl_dict_key hJ hu h5 with ⟨h9, -⟩ | ⟨-, ⟨n, rfl⟩, -⟩
          · cases h9
          · obtain ⟨s, hs⟩ := h6 (.seq n) (by simp)
            cases hs
  | onlyL u =>
    obtain ⟨h2, h3⟩ := h1
    simp only at h2 h3
    rw [clip_at] at h2 h3
    have h3' : M.at_ p = none := by simpa using h3
    have hne : (J.at_ p).map nodeKind ≠ (M.at_ p).map nodeKind := by
      rw [h3']
      cases hJp : J.at_ p with
      | none => rw [hJp] at h2; cases h2
      | some => simp
    obtain ⟨h4, -, h5⟩ := hdict hne
    rw [h4] at h2
    cases h2
    exact ⟨rfl, h5⟩
  | onlyR u =>
    obtain ⟨h2, h3⟩ := h1
    simp only at h2 h3
    rw [clip_at] at h2 h3
    have h2' : J.at_ p = none := by simpa using h2
    have hne : (J.at_ p).map nodeKind ≠ (M.at_ p).map nodeKind := by
      rw [h2']
      cases hMp : M.at_ p with
      | none => rw [hMp] at h3; cases h3
      | some => simp
    have := (hdict hne).2.1
    rw [this] at h3
    cases h3

/-- The entry at a path of the metadata. -/
def leafAt (M : Py) (q : List Key) : Option P := match M.at_ q with
  | some (.leaf e) => some e
  | _ => none

theorem norm_leaf {M : Py} (hM : Tree.Norm M) {q : List Key} {w : Py} (h : M.at_ q = some w) (hk : nodeKind w = none) : ∃ e, w = .leaf e := by
  have hw := norm_at q M w hM h
  cases w with
  | leaf e => exact ⟨e, rfl⟩
  | node k f =>
    cases f with
    | nil => exact absurd rfl hw.1
    | cons => simp [nodeKind, Forest.isEmpty] at hk

theorem placeholders_some {α} (J : Tree (Option α)) (hJ : Tree.Pl J) (M : Py) (hM : Tree.Norm M) (h : Fits J M) :
    ∃ W, placeholders J M = some W ∧ Tree.Pl W ∧ ∀ q a, J.at_ q = some (.leaf a) → W.at_ q = some (.leaf (a.bind fun _ => leafAt M q)) := by
  have hMp := norm_pl M hM
  have hrep := fits_reports J hJ M hMp h
  have hmis := fun x hx => missing_true J hJ M hMp x hx (hrep x hx).1
  have hnb := noneBelow_of J _ (fun x hx => (hmis x hx).1)
  have hsp := map_pl some M hMp
  obtain ⟨u, hu⟩ := patchAll_some (reportsOf J M) (Tree.map some M) hnb (by
      intro x hx
      refine ⟨(hrep x hx).1, (hrep x hx).2, ?_⟩
      intro e
      have := (hmis x hx).2
      rw [e] at this
      cases M <;> cases this) (by
      intro x hx p' k r e
      have h1 := (hmis x hx).1
      rw [e] at h1
      obtain ⟨kd, f, c, h2, h3⟩ := node_above h1
      obtain ⟨g, hg⟩ := fits_node h h2 h3
      have hk : ∃ s, k = .dict (.str s) := (hrep x hx).2 k (by rw [e]; simp)
      rcases pl_dict_key hJ h2 h3 with ⟨rfl, -⟩ | ⟨-, ⟨n, rfl⟩, -⟩
      · exact ⟨_, by rw [map_at, hg]; rfl⟩
      · obtain ⟨s, hs⟩ := hk; cases hs)
  have hat := patchAll_at _ _ _ hnb (fun x hx => (hrep x hx).2) hu
  have hupl := patchAll_pl _ _ _ (fun x hx => (hrep x hx).2) hu hsp
  have hud := keysOk_distinct u (pl_keysOk u hupl)
  -- the leaves of the patched metadata
  have huleaf : ∀ q e, u.at_ q = some (.leaf e) → ∃ v, J.at_ q = some v := by
    intro q e hq
    obtain ⟨a1, a2, a3⟩ := hat q
    by_cases h1 : ∃ x ∈ reportsOf J M, x.1 <+: q
    · obtain ⟨x, hx, hpre⟩ := h1
      by_cases h2 : q = x.1
      · exact ⟨_, by rw [h2]; exact (hmis x hx).1⟩
      · rw [a2 ⟨x, hx, hpre, h2⟩] at hq
        cases hq
    · have h2 := a3 (fun x hx hpre => h1 ⟨x, hx, hpre⟩)
      rw [hq, map_at, Option.map_map] at h2
      cases h3 : M.at_ q with
      | none => rw [h3] at h2; cases h2
      | some w =>
        cases h4 : J.at_ q with
        | some v => exact ⟨v, rfl⟩
        | none =>
          obtain ⟨x, hx, hpre⟩ := reports_all J hJ M hMp q (by rw [h3, h4]; simp)
          exact absurd ⟨x, hx, hpre⟩ h1
  have hJleaf : ∀ q a, J.at_ q = some (.leaf a) → ∃ e, u.at_ q = some (.leaf e) ∧ (a = none ∨ e = leafAt M q) := by
    intro q a hq
    obtain ⟨a1, a2, a3⟩ := hat q
    by_cases h1 : ∃ x ∈ reportsOf J M, x.1 <+: q
    · obtain ⟨x, hx, hpre⟩ := h1
      have h2 : x.1 = q := by
        obtain ⟨r, hr⟩ := hpre
        by_cases h3 : r = []
        · rw [← hr, h3, List.append_nil]
        · have := leaf_below (hmis x hx).1 h3
          rw [hr, hq] at this
          cases this
      refine ⟨none, a1 ⟨x, hx, h2⟩, .inl ?_⟩
      have h4 := (hmis x hx).1
      rw [h2, hq] at h4
      cases h4
      rfl
    · have h2 := a3 (fun x hx hpre => h1 ⟨x, hx, hpre⟩)
      have h3 : (J.at_ q).map nodeKind = (M.at_ q).map nodeKind := by
        apply Classical.byContradiction
        intro hne
        exact h1 (reports_all J hJ M hMp q hne)
      rw [hq] at h3
      cases h4 : M.at_ q with
      | none => rw [h4] at h3; cases h3
      | some w =>
        rw [h4] at h3
        simp only [Option.map_some, Option.some.injEq] at h3
        obtain ⟨e, rfl⟩ := norm_leaf hM h4 (by rw [← h3]; rfl)
        rw [map_at, h4] at h2
        simp only [Option.map_some, Tree.map, top] at h2
        cases h5 : u.at_ q with
        | none => rw [h5] at h2; cases h2
        | some z =>
          rw [h5] at h2
          cases z with
          | node => simp [top] at h2
          | leaf b =>
            simp only [top, Option.map_some, Option.some.injEq, Sum.inr.injEq] at h2
            exact ⟨b, rfl, .inr (by simp [leafAt, h4, h2])⟩
  have hg : ∀ q e, u.at_ q = some (.leaf e) → ∃ b, (match J.at_ q, u.at_ q with
      | some (.leaf none), _ => some (.leaf none)
      | some _, some v => some v
      | _, _ => none : Option (Tree (Option P))) = some (.leaf b) := by
    intro q e hq
    obtain ⟨v, hv⟩ := huleaf q e hq
    rw [hv, hq]
    cases v with
    | leaf a => cases a <;> exact ⟨_, rfl⟩
    | node => exact ⟨_, rfl⟩
  obtain ⟨W, hW⟩ := Option.isSome_iff_exists.mp (mapPath_isSome (fun p => match J.at_ p, u.at_ p with
      | some (.leaf none), _ => some (.leaf none)
      | some _, some v => some v
      | _, _ => none : List Key → Option (Tree (Option P))) u [] (by
    intro x hx
    obtain ⟨h3, -, h4⟩ := (u.flat_spec false hud x.1 x.2).mp hx
    obtain ⟨e, he⟩ := h4 rfl
    rw [he] at h3
    obtain ⟨b, hb⟩ := hg x.1 e h3
    simp only [List.nil_append, hb]
    rfl))
  refine ⟨W, ?_, ?_, ?_⟩
  · show (patchAll (reportsOf J M) (Tree.map some M)).bind _ = _
    rw [hu, Option.bind_some]
    exact hW
  · refine mapPath_pl _ u [] W hupl ?_ hud hW
    intro p a z hp hz
    obtain ⟨b, hb⟩ := hg p a hp
    simp only [List.nil_append] at hz
    rw [hb] at hz
    cases hz
    trivial
  · intro q a hq
    obtain ⟨e, he, hor⟩ := hJleaf q a hq
    rw [(mapPath_at _ u [] W hW q).1 e he]
    simp only [List.nil_append, hq, he]
    cases a with
    | none => rfl
    | some a =>
      rcases hor with h | h
      · cases h
      · simp [h]

theorem placeholders_fits {α} (J : Tree (Option α)) (hJ : Tree.Pl J) (M : Py) (hM : Tree.Norm M) (W : Tree (Option P)) (h : placeholders J M = some W) :
    Fits J M := by
  have hMp := norm_pl M hM
  simp only [placeholders, Option.bind_eq_bind, Option.bind_eq_some_iff] at h
  obtain ⟨u, hu, -⟩ := h
  have hu : patchAll (reportsOf J M) (Tree.map some M) = some u := hu
  have honly := patchAll_only _ _ _ hu
  have hmis := fun x hx => missing_true J hJ M hMp x hx (honly x hx)
  have hnb := noneBelow_of J _ (fun x hx => (hmis x hx).1)
  -- the kinds agree at every path that is not one of the placeholders
  have hag : ∀ q, (J.at_ q).map nodeKind = (M.at_ q).map nodeKind ∨ ∃ x ∈ reportsOf J M, x.1 = q := by
    intro q
    by_cases hne : (J.at_ q).map nodeKind = (M.at_ q).map nodeKind
    · exact .inl hne
    · obtain ⟨x, hx, r, hr⟩ := reports_all J hJ M hMp q hne
      right
      refine ⟨x, hx, ?_⟩
      by_cases h1 : r = []
      · rw [← hr, h1, List.append_nil]
      · exfalso
        apply hne
        have h2 := leaf_below (hmis x hx).1 h1
        rw [hr] at h2
        have h3 : M.at_ q = none := by rw [← hr, at_append, (hmis x hx).2]; rfl
        rw [h2, h3]
        rfl
  have hdict := patchAll_dict _ _ _ hu hnb (by
    intro x hx p' k r e hp' hf
    obtain ⟨f, hf⟩ := hf
    have h1 := (hmis x hx).1
    rw [e] at h1
    obtain ⟨kd, g, c, h2, h3⟩ := node_above h1
    rcases pl_dict_key hJ h2 h3 with ⟨-, h4⟩ | ⟨rfl, -, -⟩
    · exact h4
    · exfalso
      rw [map_at, Option.map_eq_some_iff] at hf
      obtain ⟨w, hw, hw'⟩ := hf
      have h5 : (J.at_ p').map nodeKind = (M.at_ p').map nodeKind := by
        rcases hag p' with h | ⟨y, hy, rfl⟩
        · exact h
        · rw [(hmis y hy).1] at h2; cases h2
      rw [h2, hw, Option.map_some, nodeKind_of_get h3] at h5
      cases w with
      | leaf => cases hw'
      | node k' g' =>
        cases hw'
        cases g' with
        | nil => simp [nodeKind, Forest.isEmpty] at h5
        | cons => simp [nodeKind, Forest.isEmpty] at h5)
  intro q
  rcases hag q with h | ⟨x, hx, rfl⟩
  · exact .inl h
  · exact .inr ⟨(hmis x hx).1, (hmis x hx).2, hdict x hx⟩

/-- C85 (restoring with placeholders): restoring succeeds exactly if the item is similar to the saved tree apart from placeholders in dictionaries that
the checkpoint does not have, and gives the item with the saved values, leaving the placeholders. -/
theorem C85_restore_placeholders {V D} (C : Codec V D) (hC : Faithful C) (o : Options) (t : Tree V) (ck : Ckpt D) (hk : t.KeysOk)
    (hn : (paramNames false t).Nodup) (hs : Saved C o t ck) (i : Tree (Option V)) (hi : i.KeysOk)
    (hp : ∃ p, i.at_ p = some (.leaf none)) :
    ((restore C o ck false (some i) none).isSome = true ↔ SimilarUpToPlaceholders i t) ∧
    ∀ r, restore C o ck false (some i) none = some r → RestoredUpToPlaceholders t i r := by
  obtain ⟨M, hM⟩ := saved_meta C o t ck hC hk hs
  obtain ⟨m, h1, h2⟩ := hM.read
  have hid := keysOk_distinct i hi
  have hJ := plain_pl i hi
  have hph : hasPlaceholder i = true := by
    obtain ⟨p, hp⟩ := hp
    simp only [hasPlaceholder, List.any_eq_true]
    exact ⟨(p, .leaf none), (i.flat_spec false hid p _).mpr ⟨hp, rfl, fun _ => ⟨_, rfl⟩⟩, rfl⟩
  have hfits : Fits i.plain M ↔ SimilarUpToPlaceholders i t := by
    refine forall_congr' fun q => ?_
    rw [hM.kinds]
    have : M.at_ q = none ↔ t.plain.at_ q = none := by
      have := hM.kinds q
      cases h3 : M.at_ q <;> cases h4 : t.plain.at_ q <;> simp_all
    rw [this]
  have hrest : restore C o ck false (some i) none = (placeholders i.plain M).bind fun u => restoreWith C ck.params i u none := by
    simp only [restore, h1, h2, Option.bind_eq_bind, Option.bind_some, hM.truthy, if_true, C41_serialize i hi, Bool.false_eq_true, if_false, hph]
  by_cases hc : Fits i.plain M
  · obtain ⟨W, hW, hWpl, hWat⟩ := placeholders_some i.plain hJ M hM.norm hc
    have hplain : ∀ p a, i.at_ p = some (.leaf a) → i.plain.at_ (p.map normKey) = some (.leaf a) := by
      intro p a ha
      have h3 := (i.flat_spec true hid p (.leaf a)).mpr ⟨ha, rfl, by simp⟩
      exact (plain_at_iff i hi (p.map normKey) (.leaf a) rfl).mpr ⟨_, h3, rfl, rfl⟩
    let m' : List Key → Option P := fun p => match i.at_ p with
      | some (.leaf (some _)) => entryAt M p
      | _ => none
    have hrw : restore C o ck false (some i) none = i.mapPath false (fun p => leafResult C ck.params p (m' p) none) [] := by
      rw [hrest, hW, Option.bind_some]
      rw [restoreWith_eq C ck.params i hi W none (by simp) m' ?_]
      · rfl
      · intro x hx
        obtain ⟨h3, -, h4⟩ := (i.flat_spec false hid x.1 x.2).mp hx
        obtain ⟨e, he⟩ := h4 rfl
        rw [he] at h3
        refine walk_of_at x.1 W _ hWpl ?_
        rw [hWat _ _ (hplain x.1 e h3)]
        cases e with
        | none => simp [m', h3]
        | some v =>
          simp only [m', h3, Option.bind_some]
          rfl
    have hleaf : ∀ p v, i.at_ p = some (.leaf (some v)) → ∃ q u, strPath q = strPath p ∧ t.at_ q = some u ∧ u.emptyOrLeaf = true ∧
        leafResult C ck.params p (m' p) none = some (Tree.expected u) := by
      intro p v hv
      have h3 : (i.plain.at_ (p.map normKey)).map nodeKind = (t.plain.at_ (p.map normKey)).map nodeKind := by
        rcases hfits.mp hc (p.map normKey) with h | ⟨h, -⟩
        · exact h
        · rw [hplain p _ hv] at h; cases h
      obtain ⟨q, u, h4, h5, h6, -, h7, -⟩ := item_leaf hC hM hk hn i hi p _ hv h3
      exact ⟨q, u, h4, h5, h6, by simpa [m', hv] using h7⟩
    have hpl : ∀ p, i.at_ p = some (.leaf none) → leafResult C ck.params p (m' p) none = some (.leaf none) := by
      intro p hp
      simp [m', hp, leafResult, readLeaf, fillIn]
    obtain ⟨r0, hr0⟩ := Option.isSome_iff_exists.mp (mapPath_isSome (fun p => leafResult C ck.params p (m' p) none) i [] (by
      intro x hx
      obtain ⟨h3, -, h4⟩ := (i.flat_spec false hid x.1 x.2).mp hx
      obtain ⟨e, he⟩ := h4 rfl
      rw [he] at h3
      cases e with
      | none => simp [hpl x.1 h3]
      | some v =>
        obtain ⟨q, u, -, -, -, h5⟩ := hleaf x.1 v h3
        simp [h5]))
    refine ⟨⟨fun _ => hfits.mp hc, fun _ => by rw [hrw, hr0]; rfl⟩, ?_⟩
    intro r hr
    rw [hrw] at hr
    have hat := mapPath_at _ i [] r hr
    refine ⟨fun p kd f hf => (hat p).2 kd f hf, ?_, ?_⟩
    · intro p hp
      rw [(hat p).1 _ hp, List.nil_append]
      exact hpl p hp
    · intro p a ha
      obtain ⟨q, u, h3, h4, h5, h6⟩ := hleaf p a ha
      exact ⟨q, u, h3, h4, h5, by rw [(hat p).1 _ ha, List.nil_append]; exact h6⟩
  · have hnone : restore C o ck false (some i) none = none := by
      rw [hrest]
      cases hW : placeholders i.plain M with
      | none => rfl
      | some W => exact absurd (placeholders_fits i.plain hJ M hM.norm W hW) hc
    rw [hnone]
    refine ⟨⟨fun h => (by cases h), fun h => absurd (hfits.mpr h) hc⟩, fun r h => (by cases h)⟩

end Verif.PyTree
