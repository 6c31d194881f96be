import Verif.Trees.Flat

/-!
# Lemmas on trees

`Distinct`: at every node the names of the keys of the children, as strings, are pairwise different.
-/

namespace Verif.Trees

def Forest.keys {α} : Forest α → List Key
  | .nil => []
  | .cons k _ r => k :: r.keys

mutual
/-- At every node, no two children have keys with the same name. -/
def Tree.Distinct {α} : Tree α → Prop
  | .leaf _ => True
  | .node _ f => (f.keys.map Key.str).Nodup ∧ f.Distinct
def Forest.Distinct {α} : Forest α → Prop
  | .nil => True
  | .cons _ t r => t.Distinct ∧ r.Distinct
end

/-! ### Forests -/

theorem Forest.get_mem {α} : ∀ {f : Forest α} {k : Key} {t : Tree α}, f.get k = some t → k ∈ f.keys
  | .nil, _, _, h => by simp [Forest.get] at h
  | .cons k' t' r, k, t, h => by
    simp only [Forest.get] at h
    split at h
    · next e => simp [Forest.keys, e]
    · simp [Forest.keys, Forest.get_mem h]

theorem Forest.get_none {α} : ∀ {f : Forest α} {k : Key}, f.get k = none ↔ k ∉ f.keys
  | .nil, _ => by simp [Forest.get, Forest.keys]
  | .cons k' t' r, k => by
    simp only [Forest.get, Forest.keys]
    split
    · next e => simp [e]
    · next e =>
      rw [Forest.get_none]
      simp [Ne.symm e]

theorem Forest.put_get_self {α} : ∀ (f : Forest α) (k : Key) (v : Tree α), (f.put k v).get k = some v
  | .nil, k, v => by simp [Forest.put, Forest.get]
  | .cons k' t r, k, v => by
    simp only [Forest.put]
    split
    · next e => simp [Forest.get, e]
    · next e => simp [Forest.get, e, Forest.put_get_self r k v]

theorem Forest.put_get_ne {α} : ∀ (f : Forest α) {k k' : Key} (v : Tree α), k' ≠ k → (f.put k v).get k' = f.get k'
  | .nil, k, k', v, h => by simp [Forest.put, Forest.get, Ne.symm h]
  | .cons k0 t r, k, k', v, h => by
    simp only [Forest.put]
    split
    · next e =>
      subst e
      simp [Forest.get, Ne.symm h]
    · simp [Forest.get, Forest.put_get_ne r v h]

theorem Forest.put_put {α} : ∀ (f : Forest α) (k : Key) (v w : Tree α), (f.put k v).put k w = f.put k w
  | .nil, k, v, w => by simp [Forest.put]
  | .cons k' t r, k, v, w => by
    simp only [Forest.put]
    split
    · next e => simp [Forest.put, e]
    · next e => simp [Forest.put, e, Forest.put_put r k v w]

theorem Forest.put_same {α} : ∀ (f : Forest α) (k : Key) (v : Tree α), f.get k = some v → f.put k v = f
  | .nil, k, v, h => by simp [Forest.get] at h
  | .cons k' t r, k, v, h => by
    simp only [Forest.get] at h
    simp only [Forest.put]
    split
    · next e => rw [if_pos e] at h; cases h; rfl
    · next e => rw [if_neg e] at h; rw [Forest.put_same r k v h]

theorem Forest.put_new {α} : ∀ (f : Forest α) (k : Key) (v : Tree α), f.get k = none → f.put k v = f.append (.cons k v .nil)
  | .nil, k, v, _ => rfl
  | .cons k' t r, k, v, h => by
    simp only [Forest.get] at h
    split at h
    · cases h
    · next e => simp [Forest.put, Forest.append, e, Forest.put_new r k v h]

theorem Forest.append_assoc {α} : ∀ (f g h : Forest α), (f.append g).append h = f.append (g.append h)
  | .nil, _, _ => rfl
  | .cons k t r, g, h => by simp [Forest.append, Forest.append_assoc r g h]

theorem Forest.append_nil {α} : ∀ (f : Forest α), f.append .nil = f
  | .nil => rfl
  | .cons k t r => by simp [Forest.append, Forest.append_nil r]

theorem Forest.keys_append {α} : ∀ (f g : Forest α), (f.append g).keys = f.keys ++ g.keys
  | .nil, _ => rfl
  | .cons k t r, g => by simp [Forest.append, Forest.keys, Forest.keys_append r g]

theorem Forest.length_keys {α} : ∀ (f : Forest α), f.length = f.keys.length
  | .nil => rfl
  | .cons k t r => by simp [Forest.length, Forest.keys, Forest.length_keys r]

theorem Forest.get_append_none {α} {f g : Forest α} {k : Key} : (f.append g).get k = none ↔ f.get k = none ∧ g.get k = none := by
  simp [Forest.get_none, Forest.keys_append, not_or]

theorem Forest.isEmpty_iff {α} {f : Forest α} : f.isEmpty = true ↔ f = .nil := by
  cases f <;> simp [Forest.isEmpty]

/-! ### Flattening -/

theorem Forest.flat_head {α} {keep : Bool} : ∀ {f : Forest α} {x : List Key × Tree α}, x ∈ f.flat keep →
    ∃ k p t, x.1 = k :: p ∧ k ∈ f.keys ∧ (p, x.2) ∈ Tree.flat keep t ∧ (k, t) ∈ f.toList
  | .nil, _, h => by simp [Forest.flat] at h
  | .cons k t r, x, h => by
    simp only [Forest.flat, List.mem_append, List.mem_map] at h
    rcases h with ⟨y, hy, rfl⟩ | h
    · exact ⟨k, y.1, t, rfl, by simp [Forest.keys], hy, by simp [Forest.toList]⟩
    · obtain ⟨k', p, t', h1, h2, h3, h4⟩ := Forest.flat_head h
      exact ⟨k', p, t', h1, by simp [Forest.keys, h2], h3, by simp [Forest.toList, h4]⟩

/-- A node that is not a leaf of the flattening has only non-empty paths. -/
theorem flat_nonempty_paths {α} {keep : Bool} {k : Kind} {f : Forest α} (h : (keep && f.isEmpty) = false) :
    ∀ x ∈ (Tree.node k f).flat keep, x.1 ≠ [] := by
  intro x hx
  simp only [Tree.flat, h, Bool.false_eq_true, if_false] at hx
  obtain ⟨k, p, t, h1, -⟩ := Forest.flat_head hx
  rw [h1]; simp

mutual
theorem Tree.flat_nodup {α} (keep : Bool) : ∀ (t : Tree α), t.Distinct → ((t.flat keep).map fun x => strPath x.1).Nodup
  | .leaf a, _ => by simp [Tree.flat]
  | .node k f, h => by
    simp only [Tree.flat]
    split
    · simp
    · exact Forest.flat_nodup keep f h.1 h.2
theorem Forest.flat_nodup {α} (keep : Bool) : ∀ (f : Forest α), (f.keys.map Key.str).Nodup → f.Distinct →
    ((f.flat keep).map fun x => strPath x.1).Nodup
  | .nil, _, _ => by simp [Forest.flat]
  | .cons k t r, hn, h => by
    simp only [Forest.keys, List.map_cons, List.nodup_cons] at hn
    simp only [Forest.flat, List.map_append, List.map_map]
    rw [List.nodup_append]
    refine ⟨?_, Forest.flat_nodup keep r hn.2 h.2, ?_⟩
    · have h1 := Tree.flat_nodup keep t h.1
      have e : ((fun x : List Key × Tree α => strPath x.1) ∘ fun x : List Key × Tree α => (k :: x.1, x.2))
          = (fun p => k.str :: p) ∘ (fun x : List Key × Tree α => strPath x.1) := by
        funext x; simp [strPath]
      rw [e, ← List.map_map]
      simp only [List.Nodup, List.pairwise_map] at h1 ⊢
      refine h1.imp ?_
      intro a b hab e
      simp only [List.cons.injEq, true_and] at e
      exact hab e
    · intro a ha b hb e
      obtain ⟨x, hx, rfl⟩ := List.mem_map.mp ha
      obtain ⟨y, hy, rfl⟩ := List.mem_map.mp hb
      obtain ⟨k', p, t', h1, h2, -⟩ := Forest.flat_head hy
      simp only [Function.comp_apply, strPath, List.map_cons, h1, List.cons.injEq] at e
      exact hn.1 (by rw [e.1]; exact List.mem_map_of_mem h2)
end

theorem nodup_of_map {α β} {f : α → β} {l : List α} (h : (l.map f).Nodup) : l.Nodup := by
  simp only [List.Nodup, List.pairwise_map] at h ⊢
  exact h.imp (fun hab e => hab (by rw [e]))

mutual
/-- The flattening lists exactly the leaves (and, with `keep`, the empty nodes), with their paths. -/
theorem Tree.flat_spec {α} (keep : Bool) : ∀ (t : Tree α), t.Distinct → ∀ (p : List Key) (v : Tree α),
    (p, v) ∈ t.flat keep ↔ t.at_ p = some v ∧ v.emptyOrLeaf = true ∧ (keep = false → ∃ a, v = .leaf a)
  | .leaf a, _, p, v => by
    simp only [Tree.flat, List.mem_singleton, Prod.mk.injEq]
    constructor
    · rintro ⟨rfl, rfl⟩
      exact ⟨rfl, rfl, fun _ => ⟨a, rfl⟩⟩
    · rintro ⟨h1, -, -⟩
      cases p with
      | nil => cases h1; exact ⟨rfl, rfl⟩
      | cons k p => cases h1
  | .node kd f, h, p, v => by
    simp only [Tree.flat]
    cases hc : keep && f.isEmpty with
    | true =>
      simp only [Bool.and_eq_true] at hc
      have hf := Forest.isEmpty_iff.mp hc.2
      subst hf
      simp only [if_true, List.mem_singleton, Prod.mk.injEq]
      constructor
      · rintro ⟨rfl, rfl⟩
        exact ⟨rfl, rfl, by simp [hc.1]⟩
      · rintro ⟨h1, -, -⟩
        cases p with
        | nil => cases h1; exact ⟨rfl, rfl⟩
        | cons k p => simp [Tree.at_, Forest.get] at h1
    | false =>
      simp only [Bool.false_eq_true, if_false]
      rw [Forest.flat_spec keep f h.1 h.2 p v]
      constructor
      · rintro ⟨k, q, c, rfl, h1, h2⟩
        exact ⟨by simp [Tree.at_, h1, h2.1], h2.2⟩
      · rintro ⟨h1, h2, h3⟩
        cases p with
        | nil =>
          cases h1
          exfalso
          cases keep with
          | true => simp [Tree.emptyOrLeaf] at h2; simp [h2] at hc
          | false => obtain ⟨a, ha⟩ := h3 rfl; cases ha
        | cons k p =>
          simp only [Tree.at_, Option.bind_eq_some_iff] at h1
          obtain ⟨c, h4, h5⟩ := h1
          exact ⟨k, p, c, rfl, h4, h5, h2, h3⟩
theorem Forest.flat_spec {α} (keep : Bool) : ∀ (f : Forest α), (f.keys.map Key.str).Nodup → f.Distinct → ∀ (p : List Key) (v : Tree α),
    (p, v) ∈ f.flat keep ↔ ∃ k q c, p = k :: q ∧ f.get k = some c ∧ c.at_ q = some v ∧ v.emptyOrLeaf = true ∧ (keep = false → ∃ a, v = .leaf a)
  | .nil, _, _, p, v => by simp [Forest.flat, Forest.get]
  | .cons k t r, hn, h, p, v => by
    simp only [Forest.keys, List.map_cons, List.nodup_cons] at hn
    simp only [Forest.flat, List.mem_append, List.mem_map]
    rw [Forest.flat_spec keep r hn.2 h.2 p v]
    constructor
    · rintro (⟨⟨q, w⟩, hx, e⟩ | ⟨k', q, c, rfl, h1, h2⟩)
      · cases e
        exact ⟨k, q, t, rfl, by simp [Forest.get], (Tree.flat_spec keep t h.1 q w).mp hx⟩
      · refine ⟨k', q, c, rfl, ?_, h2⟩
        have hne : k ≠ k' := by
          rintro rfl
          exact hn.1 (List.mem_map_of_mem (Forest.get_mem h1))
        simp [Forest.get, hne, h1]
    · rintro ⟨k', q, c, rfl, h1, h2⟩
      simp only [Forest.get] at h1
      split at h1
      · next e =>
        cases h1
        subst e
        exact .inl ⟨(q, v), (Tree.flat_spec keep t h.1 q v).mpr h2, rfl⟩
      · exact .inr ⟨k', q, c, rfl, h1, h2⟩
end

/-! ### Filling in -/

mutual
theorem Tree.fill_spec {α β} (g : List Key → Option (Tree β)) : ∀ (t : Tree α) (pre : List Key),
    (((t.flat false).mapM fun x => g (pre ++ x.1)) = none ∧ t.mapPath false g pre = none) ∨
    ∃ vs t', ((t.flat false).mapM fun x => g (pre ++ x.1)) = some vs ∧ t.mapPath false g pre = some t' ∧
      ∀ rest, t.fill (vs ++ rest) = some (t', rest)
  | .leaf a, pre => by
    simp only [Tree.flat, Tree.mapPath, List.mapM_cons, List.append_nil, List.mapM_nil]
    cases hg : g pre with
    | none => left; exact ⟨rfl, rfl⟩
    | some v => right; exact ⟨[v], v, rfl, rfl, fun rest => rfl⟩
  | .node k f, pre => by
    simp only [Tree.flat, Tree.mapPath, Bool.false_and, Bool.false_eq_true, if_false]
    rcases Forest.fill_spec g f pre with ⟨h1, h2⟩ | ⟨vs, f', h1, h2, h3⟩
    · left; rw [h1, h2]; exact ⟨rfl, rfl⟩
    · right
      refine ⟨vs, .node k f', h1, by rw [h2]; rfl, ?_⟩
      intro rest
      simp [Tree.fill, h3 rest]
theorem Forest.fill_spec {α β} (g : List Key → Option (Tree β)) : ∀ (f : Forest α) (pre : List Key),
    (((f.flat false).mapM fun x => g (pre ++ x.1)) = none ∧ f.mapPath false g pre = none) ∨
    ∃ vs f', ((f.flat false).mapM fun x => g (pre ++ x.1)) = some vs ∧ f.mapPath false g pre = some f' ∧
      ∀ rest, f.fill (vs ++ rest) = some (f', rest)
  | .nil, pre => by
    right; exact ⟨[], .nil, rfl, rfl, fun rest => rfl⟩
  | .cons k t r, pre => by
    have e : ∀ l : List (List Key × Tree α), (l.map fun x => ((k :: x.1, x.2) : List Key × Tree α)).mapM (fun x => g (pre ++ x.1))
        = l.mapM fun x => g ((pre ++ [k]) ++ x.1) := by
      intro l
      rw [List.mapM_map]
      congr 1
      funext x
      simp
    simp only [Forest.flat, Forest.mapPath, List.mapM_append]
    rw [e]
    rcases Tree.fill_spec g t (pre ++ [k]) with ⟨h1, h2⟩ | ⟨vs, t', h1, h2, h3⟩
    · left; rw [h1, h2]; exact ⟨rfl, rfl⟩
    · rcases Forest.fill_spec g r pre with ⟨h1', h2'⟩ | ⟨vs', r', h1', h2', h3'⟩
      · left; rw [h1, h2, h1', h2']; exact ⟨rfl, rfl⟩
      · right
        refine ⟨vs ++ vs', .cons k t' r', by rw [h1, h1']; rfl, by rw [h2, h2']; rfl, ?_⟩
        intro rest
        simp [Forest.fill, List.append_assoc, h3, h3']
end

/-- Unflattening with the values looked up by path is mapping over the tree. -/
theorem unflatten_map {α β} (t : Tree α) (g : List Key → Option (Tree β)) :
    (((t.flat false).map (·.1)).mapM g).bind (unflatten t) = t.mapPath false g [] := by
  rw [List.mapM_map]
  rcases Tree.fill_spec g t [] with ⟨h1, h2⟩ | ⟨vs, t', h1, h2, h3⟩
  · simp only [List.nil_append] at h1
    rw [h2]
    have : (List.mapM (g ∘ fun x => x.1) (t.flat false)) = none := h1
    rw [this]; rfl
  · simp only [List.nil_append] at h1
    have : (List.mapM (g ∘ fun x => x.1) (t.flat false)) = some vs := h1
    rw [this, h2]
    simp only [Option.bind_some, unflatten]
    have := h3 []
    rw [List.append_nil] at this
    rw [this]

mutual
theorem Tree.mapPath_id {α} (keep : Bool) (g : List Key → Option (Tree α)) : ∀ (t : Tree α) (pre : List Key),
    (∀ x ∈ t.flat keep, g (pre ++ x.1) = some x.2) → t.mapPath keep g pre = some t
  | .leaf a, pre, h => by
    have := h ([], .leaf a) (by simp [Tree.flat])
    simpa [Tree.mapPath] using this
  | .node k f, pre, h => by
    simp only [Tree.mapPath]
    cases hc : keep && f.isEmpty with
    | true =>
      have := h ([], .node k f) (by simp [Tree.flat, hc])
      simpa using this
    | false =>
      simp only [Bool.false_eq_true, if_false]
      rw [Forest.mapPath_id keep g f pre (fun x hx => h x (by simpa [Tree.flat, hc] using hx))]
      rfl
theorem Forest.mapPath_id {α} (keep : Bool) (g : List Key → Option (Tree α)) : ∀ (f : Forest α) (pre : List Key),
    (∀ x ∈ f.flat keep, g (pre ++ x.1) = some x.2) → f.mapPath keep g pre = some f
  | .nil, pre, h => rfl
  | .cons k t r, pre, h => by
    simp only [Forest.mapPath]
    rw [Tree.mapPath_id keep g t (pre ++ [k]) (by
      intro x hx
      have := h (k :: x.1, x.2) (by
        simp only [Forest.flat, List.mem_append, List.mem_map]
        exact .inl ⟨x, hx, rfl⟩)
      simpa using this)]
    rw [Forest.mapPath_id keep g r pre (fun x hx => h x (by simp [Forest.flat, hx]))]
    rfl
end

end Verif.Trees
