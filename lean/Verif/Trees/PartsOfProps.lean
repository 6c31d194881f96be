import Verif.Trees.PartsOf
import Verif.Trees.FlatProps

/-!
# Property C46: `PartsOf` behaves like a partial map over the leaves of the template
-/

namespace Verif.Trees

open Verif

/-! ### Specification -/

/-- The names along the paths of the leaves of a tree. -/
def leafPaths {α} (t : Tree α) : List (List Name) := (t.flat false).map fun x => strPath x.1

/-- The partial map a `PartsOf` stands for. -/
def Parts.lookup {α} (p : Parts α) (q : List Name) : Option α := Assoc.get p.present q

/-- What every `PartsOf` satisfies: values only at leaves of the template, one per path. -/
structure Parts.Ok {α} (p : Parts α) : Prop where
  distinct : p.template.Distinct
  nodup : (p.present.map (·.1)).Nodup
  sub : ∀ x ∈ p.present, x.1 ∈ leafPaths p.template

/-! ### Lemmas on shapes -/

mutual
theorem relabel_shape {α β} (h : List Key → β) : ∀ (t : Tree α) (p : List Key), (t.relabel h p).shape = t.shape
  | .leaf a, p => rfl
  | .node k f, p => by simp [Tree.relabel, Tree.shape, relabelF_shape h f p]
theorem relabelF_shape {α β} (h : List Key → β) : ∀ (f : Forest α) (p : List Key), (f.relabel h p).shape = f.shape
  | .nil, p => rfl
  | .cons k t r, p => by simp [Forest.relabel, Forest.shape, relabel_shape h t, relabelF_shape h r]
end

theorem shapeF_keys {α} : ∀ (f : Forest α), f.shape.keys = f.keys
  | .nil => rfl
  | .cons k t r => by simp [Forest.shape, Forest.keys, shapeF_keys r]

mutual
theorem shape_distinct {α} : ∀ (t : Tree α), t.shape.Distinct ↔ t.Distinct
  | .leaf a => by simp [Tree.shape, Tree.Distinct]
  | .node k f => by simp [Tree.shape, Tree.Distinct, shapeF_keys, shapeF_distinct f]
theorem shapeF_distinct {α} : ∀ (f : Forest α), f.shape.Distinct ↔ f.Distinct
  | .nil => by simp [Forest.shape, Forest.Distinct]
  | .cons k t r => by simp [Forest.shape, Forest.Distinct, shape_distinct t, shapeF_distinct r]
end

mutual
theorem shape_paths {α} : ∀ (t : Tree α), (t.shape.flat false).map (·.1) = (t.flat false).map (·.1)
  | .leaf a => rfl
  | .node k f => by simpa [Tree.shape, Tree.flat] using shapeF_paths f
theorem shapeF_paths {α} : ∀ (f : Forest α), (f.shape.flat false).map (·.1) = (f.flat false).map (·.1)
  | .nil => rfl
  | .cons k t r => by
    have h := congrArg (List.map (k :: ·)) (shape_paths t)
    simp only [List.map_map] at h
    simp only [Forest.shape, Forest.flat, List.map_append, List.map_map, shapeF_paths r]
    congr 1
end

mutual
theorem shape_shape {α} : ∀ (t : Tree α), t.shape.shape = t.shape
  | .leaf a => rfl
  | .node k f => by simp [Tree.shape, shapeF_shape f]
theorem shapeF_shape {α} : ∀ (f : Forest α), f.shape.shape = f.shape
  | .nil => rfl
  | .cons k t r => by simp [Forest.shape, shape_shape t, shapeF_shape r]
end

mutual
theorem shape_unit : ∀ (t : Tree Unit), t.shape = t
  | .leaf () => rfl
  | .node k f => by simp [Tree.shape, shapeF_unit f]
theorem shapeF_unit : ∀ (f : Forest Unit), f.shape = f
  | .nil => rfl
  | .cons k t r => by simp [Forest.shape, shape_unit t, shapeF_unit r]
end

theorem leafPaths_shape {α} (t : Tree α) : leafPaths t.shape = leafPaths t := by
  have := congrArg (List.map strPath) (shape_paths t)
  simpa [leafPaths, List.map_map, Function.comp_def] using this

theorem leafPaths_eq {α β} {t : Tree α} {u : Tree β} (h : t.shape = u.shape) : leafPaths t = leafPaths u := by
  rw [← leafPaths_shape t, h, leafPaths_shape]

mutual
theorem relabel_flat {α β} (h : List Key → β) : ∀ (t : Tree α) (p : List Key),
    (t.relabel h p).flat false = (t.flat false).map fun x => (x.1, .leaf (h (p ++ x.1)))
  | .leaf a, p => by simp [Tree.relabel, Tree.flat]
  | .node k f, p => by simpa [Tree.relabel, Tree.flat] using relabelF_flat h f p
theorem relabelF_flat {α β} (h : List Key → β) : ∀ (f : Forest α) (p : List Key),
    (f.relabel h p).flat false = (f.flat false).map fun x => (x.1, .leaf (h (p ++ x.1)))
  | .nil, p => rfl
  | .cons k t r, p => by
    simp only [Forest.relabel, Forest.flat, relabel_flat h t, relabelF_flat h r, List.map_append, List.map_map]
    congr 1
    apply List.map_congr_left
    intro x _
    simp
end

mutual
theorem mapPath_relabel {α β} (g : List Key → Option (Tree β)) (h : List Key → β) : ∀ (t : Tree α) (p : List Key),
    (∀ x ∈ t.flat false, g (p ++ x.1) = some (.leaf (h (p ++ x.1)))) → t.mapPath false g p = some (t.relabel h p)
  | .leaf a, p, hg => by
    have := hg ([], .leaf a) (by simp [Tree.flat])
    simpa [Tree.mapPath, Tree.relabel] using this
  | .node k f, p, hg => by
    simp only [Tree.mapPath, Bool.false_and, Bool.false_eq_true, if_false, Tree.relabel]
    rw [mapPathF_relabel g h f p (by simpa [Tree.flat] using hg)]
    rfl
theorem mapPathF_relabel {α β} (g : List Key → Option (Tree β)) (h : List Key → β) : ∀ (f : Forest α) (p : List Key),
    (∀ x ∈ f.flat false, g (p ++ x.1) = some (.leaf (h (p ++ x.1)))) → f.mapPath false g p = some (f.relabel h p)
  | .nil, p, hg => rfl
  | .cons k t r, p, hg => by
    simp only [Forest.mapPath, Forest.relabel]
    rw [mapPath_relabel g h t (p ++ [k]) (by
      intro x hx
      have := hg (k :: x.1, x.2) (by
        simp only [Forest.flat, List.mem_append, List.mem_map]
        exact .inl ⟨x, hx, rfl⟩)
      simpa using this)]
    rw [mapPathF_relabel g h r p (fun x hx => hg x (by simp [Forest.flat, hx]))]
    rfl
end

mutual
theorem mapPath_none {α β} (g : List Key → Option (Tree β)) : ∀ (t : Tree α) (p : List Key),
    (∃ x ∈ t.flat false, g (p ++ x.1) = none) → t.mapPath false g p = none
  | .leaf a, p, ⟨x, hx, hg⟩ => by
    simp only [Tree.flat, List.mem_singleton] at hx
    subst hx
    simpa [Tree.mapPath] using hg
  | .node k f, p, hg => by
    simp only [Tree.mapPath, Bool.false_and, Bool.false_eq_true, if_false]
    rw [mapPathF_none g f p (by simpa [Tree.flat] using hg)]
    rfl
theorem mapPathF_none {α β} (g : List Key → Option (Tree β)) : ∀ (f : Forest α) (p : List Key),
    (∃ x ∈ f.flat false, g (p ++ x.1) = none) → f.mapPath false g p = none
  | .nil, p, ⟨x, hx, _⟩ => by simp [Forest.flat] at hx
  | .cons k t r, p, ⟨x, hx, hg⟩ => by
    simp only [Forest.flat, List.mem_append, List.mem_map] at hx
    simp only [Forest.mapPath]
    rcases hx with ⟨y, hy, rfl⟩ | hx
    · rw [mapPath_none g t (p ++ [k]) ⟨y, hy, by simpa using hg⟩]
      rfl
    · rw [mapPathF_none g r p ⟨x, hx, hg⟩]
      cases t.mapPath false g (p ++ [k]) <;> rfl
end

theorem getTemplate_shape {α} (p : Parts α) : p.getTemplate.shape = p.template := by
  rw [Parts.getTemplate, relabel_shape, shape_unit]

theorem getTemplate_distinct {α} {p : Parts α} (h : p.Ok) : p.getTemplate.Distinct := by
  rw [← shape_distinct, getTemplate_shape]; exact h.distinct

theorem getTemplate_paths {α} (p : Parts α) : leafPaths p.getTemplate = leafPaths p.template :=
  leafPaths_eq (by rw [getTemplate_shape, shape_unit])

theorem Parts.ok_nodup {α} {p : Parts α} (h : p.Ok) : (Assoc.keys p.present).Nodup := h.nodup

theorem Parts.lookup_path {α} {p : Parts α} (h : p.Ok) {q a} (hl : p.lookup q = some a) : q ∈ leafPaths p.template :=
  h.sub (q, a) (Assoc.mem_of_get _ _ _ hl)

/-! ### Making a `PartsOf` -/

theorem toFlat_keys {α} {t : Tree α} (h : t.Distinct) : (toFlat false t).map (·.1) = leafPaths t := by
  rw [toFlat_eq false t h]; simp [leafPaths, List.map_map, Function.comp_def]

/-- C46 (making one): a `PartsOf` is made exactly if every value that is not a placeholder is at a leaf of the
template; it then has the structure of the template and exactly those values. -/
theorem C46_init {α β} (template : Tree β) (value : Tree (Option α)) (ht : template.Distinct) (hv : value.Distinct) :
    ((Parts.init template value).isSome = true ↔
      ∀ ks a, value.at_ ks = some (.leaf (some a)) → strPath ks ∈ leafPaths template) ∧
    ∀ p, Parts.init template value = some p → p.Ok ∧ p.template = template.shape ∧
      ∀ q a, p.lookup q = some a ↔ ∃ ks, strPath ks = q ∧ value.at_ ks = some (.leaf (some a)) := by
  have hmem : ∀ q a, (q, a) ∈ ((toFlat false value).filterMap fun x => (leafValue x.2).map fun a => (x.1, a)) ↔
      ∃ ks, strPath ks = q ∧ value.at_ ks = some (.leaf (some a)) := by
    intro q a
    simp only [List.mem_filterMap, Option.map_eq_some_iff, Prod.mk.injEq]
    constructor
    · rintro ⟨⟨q', v⟩, h1, b, h2, rfl, rfl⟩
      obtain ⟨ks, h3, h4, -, h5⟩ := ((C40_flat_entries false value hv q' v).1).mp h1
      obtain ⟨o, rfl⟩ := h5 rfl
      simp only [leafValue] at h2
      subst h2
      exact ⟨ks, h3, h4⟩
    · rintro ⟨ks, rfl, h4⟩
      exact ⟨(strPath ks, .leaf (some a)), ((C40_flat_entries false value hv _ _).1).mpr ⟨ks, rfl, h4, rfl, fun _ => ⟨_, rfl⟩⟩,
        a, rfl, rfl, rfl⟩
  have hall : (((toFlat false value).filterMap fun x => (leafValue x.2).map fun a => (x.1, a)).all
      fun x => ((toFlat false template).map (·.1)).contains x.1) = true ↔
      ∀ ks a, value.at_ ks = some (.leaf (some a)) → strPath ks ∈ leafPaths template := by
    simp only [List.all_eq_true, toFlat_keys ht, List.contains_iff_mem]
    constructor
    · intro h ks a hk
      exact h (strPath ks, a) ((hmem _ _).mpr ⟨ks, rfl, hk⟩)
    · rintro h ⟨q, a⟩ hx
      obtain ⟨ks, rfl, hk⟩ := (hmem q a).mp hx
      exact h ks a hk
  have hnd : (((toFlat false value).filterMap fun x => (leafValue x.2).map fun a => (x.1, a)).map (·.1)).Nodup := by
    have h1 : ∀ l : List (List Name × Tree (Option α)), List.Sublist ((l.filterMap fun x => (leafValue x.2).map fun a => (x.1, a)).map (·.1)) (l.map (·.1)) := by
      intro l
      induction l with
      | nil => simp
      | cons x l ih =>
        cases hx : leafValue x.2 with
        | none => simp only [List.filterMap_cons, hx, Option.map_none, List.map_cons]; exact ih.cons _
        | some a => simp only [List.filterMap_cons, hx, Option.map_some, List.map_cons]; exact ih.cons_cons _
    exact (C40_flat_entries false value hv [] (.leaf none)).2.sublist (h1 _)
  constructor
  · rw [← hall]
    simp only [Parts.init]
    split
    · next h => exact iff_of_true rfl h
    · next h => exact iff_of_false (by simp) h
  · intro p hp
    simp only [Parts.init] at hp
    split at hp
    · next h =>
      cases hp
      refine ⟨⟨(shape_distinct template).mpr ht, hnd, ?_⟩, rfl, ?_⟩
      · rintro ⟨q, a⟩ hx
        rw [leafPaths_shape]
        obtain ⟨ks, rfl, hk⟩ := (hmem q a).mp hx
        exact hall.mp h ks a hk
      · intro q a
        rw [← hmem]
        exact ⟨Assoc.mem_of_get _ _ _, Assoc.get_of_mem _ hnd _ _⟩
    · cases hp

/-- C46 (the empty one): it has no values. -/
theorem C46_empty {α β} (template : Tree β) (ht : template.Distinct) :
    ∃ p : Parts α, Parts.empty template = some p ∧ p.Ok ∧ p.template = template.shape ∧ p.isEmpty = true ∧ ∀ q, p.lookup q = none := by
  refine ⟨⟨template.shape, []⟩, rfl, ⟨(shape_distinct template).mpr ht, by simp, by simp⟩, rfl, rfl, fun q => rfl⟩

/-! ### Getting the structure out -/

theorem get_map_leaf {α β} (f : α → β) (l : List (List Name × α)) (q : List Name) :
    Assoc.get (l.map fun x => (x.1, f x.2)) q = (Assoc.get l q).map f := by
  induction l with
  | nil => rfl
  | cons x l ih =>
    simp only [List.map_cons, Assoc.get]
    split
    · rfl
    · exact ih

theorem mem_leafPaths {α} {t : Tree α} {x : List Key × Tree α} (h : x ∈ t.flat false) : strPath x.1 ∈ leafPaths t :=
  List.mem_map_of_mem (f := fun x : List Key × Tree α => strPath x.1) h

theorem full_eq {α} {p : Parts α} (h : p.Ok) :
    p.full = p.getTemplate.mapPath false (fun ks => (p.lookup (strPath ks)).map .leaf) [] := by
  simp only [Parts.full]
  rw [C40_target _ _ (getTemplate_distinct h)]
  simp only [get_map_leaf]
  rfl

mutual
theorem mapPath_some {α β} (g : List Key → Option (Tree β)) : ∀ (t : Tree α) (p : List Key),
    (∀ x ∈ t.flat false, ∃ a, g (p ++ x.1) = some (.leaf a)) → ∃ t', t.mapPath false g p = some t' ∧ t'.shape = t.shape ∧
      ∀ x ∈ t'.flat false, g (p ++ x.1) = some x.2
  | .leaf a, p, h => by
    obtain ⟨b, hb⟩ := h ([], .leaf a) (by simp [Tree.flat])
    rw [List.append_nil] at hb
    refine ⟨.leaf b, by simpa [Tree.mapPath] using hb, rfl, ?_⟩
    intro x hx
    simp only [Tree.flat, List.mem_singleton] at hx
    subst hx
    simpa using hb
  | .node k f, p, h => by
    obtain ⟨f', h1, h2, h3⟩ := mapPathF_some g f p (by simpa [Tree.flat] using h)
    exact ⟨.node k f', by simp [Tree.mapPath, h1], by simp [Tree.shape, h2], by simpa [Tree.flat] using h3⟩
theorem mapPathF_some {α β} (g : List Key → Option (Tree β)) : ∀ (f : Forest α) (p : List Key),
    (∀ x ∈ f.flat false, ∃ a, g (p ++ x.1) = some (.leaf a)) → ∃ f', f.mapPath false g p = some f' ∧ f'.shape = f.shape ∧
      ∀ x ∈ f'.flat false, g (p ++ x.1) = some x.2
  | .nil, p, h => ⟨.nil, rfl, rfl, by simp [Forest.flat]⟩
  | .cons k t r, p, h => by
    obtain ⟨t', h1, h2, h3⟩ := mapPath_some g t (p ++ [k]) (by
      intro x hx
      have := h (k :: x.1, x.2) (by
        simp only [Forest.flat, List.mem_append, List.mem_map]
        exact .inl ⟨x, hx, rfl⟩)
      simpa using this)
    obtain ⟨r', h4, h5, h6⟩ := mapPathF_some g r p (fun x hx => h x (by simp [Forest.flat, hx]))
    refine ⟨.cons k t' r', by simp [Forest.mapPath, h1, h4], by simp [Forest.shape, h2, h5], ?_⟩
    intro x hx
    simp only [Forest.flat, List.mem_append, List.mem_map] at hx
    rcases hx with ⟨y, hy, rfl⟩ | hx
    · have := h3 y hy
      simpa using this
    · exact h6 x hx
end

/-- C46 (the full structure): it is given exactly if no leaf of the template is missing, and then has the structure of
the template and at every leaf the value of the partial map. -/
theorem C46_full {α} (p : Parts α) (h : p.Ok) :
    (p.full.isSome = true ↔ ∀ q ∈ leafPaths p.template, (p.lookup q).isSome = true) ∧
    ∀ t, p.full = some t → t.shape = p.template ∧
      ∀ x ∈ t.flat false, ∃ a, x.2 = .leaf a ∧ p.lookup (strPath x.1) = some a := by
  rw [full_eq h]
  by_cases hall : ∀ q ∈ leafPaths p.template, (p.lookup q).isSome = true
  · obtain ⟨t', h1, h2, h3⟩ := mapPath_some (fun ks => (p.lookup (strPath ks)).map Tree.leaf) p.getTemplate [] (by
      intro x hx
      have := hall (strPath x.1) (by rw [← getTemplate_paths]; exact mem_leafPaths hx)
      rw [Option.isSome_iff_exists] at this
      obtain ⟨a, ha⟩ := this
      exact ⟨a, by simp [ha]⟩)
    rw [h1]
    refine ⟨iff_of_true rfl hall, ?_⟩
    rintro t ht
    cases ht
    refine ⟨by rw [h2, getTemplate_shape], ?_⟩
    intro x hx
    have := h3 x hx
    rw [List.nil_append, Option.map_eq_some_iff] at this
    obtain ⟨a, ha, hb⟩ := this
    exact ⟨a, hb.symm, ha⟩
  · have hn : p.getTemplate.mapPath false (fun ks => (p.lookup (strPath ks)).map Tree.leaf) [] = none := by
      apply mapPath_none
      apply Classical.byContradiction
      intro hne
      apply hall
      intro q hq
      rw [← getTemplate_paths] at hq
      obtain ⟨x, hx, rfl⟩ := List.mem_map.mp hq
      cases hl : p.lookup (strPath x.1) with
      | some a => rfl
      | none => exact absurd ⟨x, hx, by simp [hl]⟩ hne
    rw [hn]
    exact ⟨iff_of_false (by simp) hall, fun t ht => by cases ht⟩

theorem get_foldl_put {α β} (f : α → β) : ∀ (l : List (List Name × α)) (d : List (List Name × β)) (q : List Name), (l.map (·.1)).Nodup →
    Assoc.get (l.foldl (fun d x => Assoc.put d x.1 (f x.2)) d) q = ((Assoc.get l q).map f).or (Assoc.get d q)
  | [], d, q, _ => by simp
  | x :: l, d, q, hn => by
    simp only [List.map_cons, List.nodup_cons] at hn
    simp only [List.foldl_cons]
    rw [get_foldl_put f l _ q hn.2, Assoc.get_put]
    obtain ⟨k, v⟩ := x
    simp only [Assoc.get]
    by_cases hk : q = k
    · subst hk
      have : Assoc.get l q = none := (Assoc.get_eq_none_iff l q).mpr hn.1
      simp [this]
    · simp [hk, Ne.symm hk]

/-- C46 (the structure with placeholders): it is always given, has the structure of the template, and at every leaf
the value of the partial map, or a placeholder where there is none. -/
theorem C46_unsafe {α} (p : Parts α) (h : p.Ok) :
    ∃ u, p.unsafe = some u ∧ u.shape = p.template ∧ ∀ x ∈ u.flat false, x.2 = .leaf (p.lookup (strPath x.1)) := by
  simp only [Parts.unsafe]
  rw [C40_target _ _ (getTemplate_distinct h)]
  have hget : ∀ q ∈ leafPaths p.template, Assoc.get (p.present.foldl (fun d x => Assoc.put d x.1 (Tree.leaf (some x.2))) (toFlat false p.getTemplate)) q
      = some (.leaf (p.lookup q)) := by
    intro q hq
    rw [get_foldl_put (fun a => Tree.leaf (some a)) _ _ _ h.nodup]
    change ((p.lookup q).map _).or _ = _
    cases hl : p.lookup q with
    | some a => rfl
    | none =>
      simp only [Option.map_none, Option.none_or]
      rw [← getTemplate_paths] at hq
      obtain ⟨x, hx, rfl⟩ := List.mem_map.mp hq
      have hx2 : x.2 = .leaf none := by
        simp only [Parts.getTemplate, relabel_flat, List.mem_map] at hx
        obtain ⟨y, -, rfl⟩ := hx
        rfl
      rw [toFlat_eq false _ (getTemplate_distinct h)]
      have := get_of_nodup (d := (p.getTemplate.flat false).map fun x => (strPath x.1, x.2))
        (by rw [List.map_map]; exact p.getTemplate.flat_nodup false (getTemplate_distinct h)) (x := (strPath x.1, x.2))
        (List.mem_map_of_mem hx)
      rw [this, hx2]
  obtain ⟨t', h1, h2, h3⟩ := mapPath_some (fun ks => Assoc.get (p.present.foldl (fun d x => Assoc.put d x.1 (Tree.leaf (some x.2)))
      (toFlat false p.getTemplate)) (strPath ks)) p.getTemplate [] (by
    intro x hx
    exact ⟨_, hget _ (by rw [← getTemplate_paths]; exact mem_leafPaths hx)⟩)
  refine ⟨t', h1, by rw [h2, getTemplate_shape], ?_⟩
  intro x hx
  have h4 := h3 x hx
  rw [List.nil_append, hget _ (by
    rw [← leafPaths_eq (t := t') (u := p.template) (by rw [h2, getTemplate_shape, shape_unit])]; exact mem_leafPaths hx)] at h4
  exact (Option.some.inj h4).symm

/-- C46 (nothing is lost in the structure with placeholders): making a `PartsOf` from it again gives the same partial
map over the same template. -/
theorem C46_unsafe_round_trip {α} (p : Parts α) (h : p.Ok) :
    ∃ u p', p.unsafe = some u ∧ Parts.fromStructure u = some p' ∧ p'.template = p.template ∧ ∀ q, p'.lookup q = p.lookup q := by
  obtain ⟨u, h1, h2, h3⟩ := C46_unsafe p h
  have hd : u.Distinct := by rw [← shape_distinct, h2]; exact h.distinct
  have hi := C46_init u u hd hd
  have hpaths : leafPaths u = leafPaths p.template := leafPaths_eq (by rw [h2, shape_unit])
  have hs : (Parts.init u u).isSome = true := by
    rw [hi.1]
    intro ks a hk
    exact mem_leafPaths (x := (ks, .leaf (some a))) ((u.flat_spec false hd _ _).mpr ⟨hk, rfl, fun _ => ⟨_, rfl⟩⟩)
  obtain ⟨p', hp'⟩ := Option.isSome_iff_exists.mp hs
  obtain ⟨h4, h5, h6⟩ := hi.2 p' hp'
  refine ⟨u, p', h1, hp', by rw [h5, h2], ?_⟩
  intro q
  apply Option.ext
  intro a
  rw [h6]
  constructor
  · rintro ⟨ks, rfl, hk⟩
    have := h3 (ks, .leaf (some a)) ((u.flat_spec false hd _ _).mpr ⟨hk, rfl, fun _ => ⟨_, rfl⟩⟩)
    simp only [Tree.leaf.injEq] at this
    exact this.symm
  · intro hl
    have hq := Parts.lookup_path h hl
    rw [← hpaths] at hq
    obtain ⟨x, hx, rfl⟩ := List.mem_map.mp hq
    have h7 := h3 x hx
    obtain ⟨h8, -, -⟩ := (u.flat_spec false hd x.1 x.2).mp hx
    refine ⟨x.1, rfl, ?_⟩
    rw [h8, h7, hl]

/-- C46 (a complete structure): the `PartsOf` of a structure without placeholders gives it back. -/
theorem C46_from_full_structure {α} (s : Tree α) (hd : s.Distinct) :
    ∃ v p t, s.mapPath false (fun ks => match s.at_ ks with
        | some (.leaf a) => some (.leaf (some a))
        | _ => none) [] = some v ∧
      Parts.fromStructure v = some p ∧ p.full = some t ∧ t.shape = s.shape ∧ ∀ ks a, t.at_ ks = some (.leaf a) ↔ s.at_ ks = some (.leaf a) := by
  obtain ⟨v, h1, h2, h3⟩ := mapPath_some (fun ks => match s.at_ ks with
        | some (.leaf a) => some (Tree.leaf (some a))
        | _ => none) s [] (by
    intro x hx
    obtain ⟨h4, -, h5⟩ := (s.flat_spec false hd x.1 x.2).mp hx
    obtain ⟨a, ha⟩ := h5 rfl
    exact ⟨some a, by simp [h4, ha]⟩)
  have hvd : v.Distinct := by rw [← shape_distinct, h2, shape_distinct]; exact hd
  have hv : ∀ x ∈ v.flat false, ∃ a, x.2 = .leaf (some a) ∧ s.at_ x.1 = some (.leaf a) := by
    intro x hx
    have := h3 x hx
    rw [List.nil_append] at this
    split at this
    · next a ha => exact ⟨a, (Option.some.inj this).symm, ha⟩
    · cases this
  have hi := C46_init v v hvd hvd
  have hs : (Parts.init v v).isSome = true := by
    rw [hi.1]
    intro ks a hk
    exact mem_leafPaths (x := (ks, .leaf (some a))) ((v.flat_spec false hvd _ _).mpr ⟨hk, rfl, fun _ => ⟨_, rfl⟩⟩)
  obtain ⟨p, hp⟩ := Option.isSome_iff_exists.mp hs
  obtain ⟨h4, h5, h6⟩ := hi.2 p hp
  have hfull := C46_full p h4
  have hpv : leafPaths p.template = leafPaths v := leafPaths_eq (by rw [h5, shape_shape])
  have hlook : ∀ x ∈ v.flat false, ∀ a, x.2 = .leaf (some a) → p.lookup (strPath x.1) = some a := by
    intro x hx a ha
    rw [h6]
    obtain ⟨h7, -, -⟩ := (v.flat_spec false hvd x.1 x.2).mp hx
    exact ⟨x.1, rfl, by rw [h7, ha]⟩
  have hsome : p.full.isSome = true := by
    rw [hfull.1, hpv]
    intro q hq
    obtain ⟨x, hx, rfl⟩ := List.mem_map.mp hq
    obtain ⟨a, ha, -⟩ := hv x hx
    rw [hlook x hx a ha]
    rfl
  obtain ⟨t, ht⟩ := Option.isSome_iff_exists.mp hsome
  obtain ⟨h8, h9⟩ := hfull.2 t ht
  have hts : t.shape = s.shape := by rw [h8, h5, h2]
  have htd : t.Distinct := by rw [← shape_distinct, hts, shape_distinct]; exact hd
  -- key paths are the same in s, v and t
  have hkeys : ∀ {β γ} (a : Tree β) (b : Tree γ), a.shape = b.shape → ∀ x ∈ a.flat false, ∃ y ∈ b.flat false, y.1 = x.1 := by
    intro β γ a b hab x hx
    have h10 : (a.flat false).map (·.1) = (b.flat false).map (·.1) := by rw [← shape_paths a, hab, shape_paths b]
    have : x.1 ∈ (b.flat false).map (·.1) := by rw [← h10]; exact List.mem_map_of_mem hx
    obtain ⟨y, hy, e⟩ := List.mem_map.mp this
    exact ⟨y, hy, e⟩
  have hone : ∀ x ∈ t.flat false, ∃ a, x.2 = .leaf a ∧ s.at_ x.1 = some (.leaf a) := by
    intro x hx
    obtain ⟨a, ha, hla⟩ := h9 x hx
    obtain ⟨y, hy, hyx⟩ := hkeys t v (by rw [hts, h2]) x hx
    obtain ⟨b, hb, hsb⟩ := hv y hy
    have := hlook y hy b hb
    rw [hyx, hla] at this
    cases this
    exact ⟨a, ha, by rw [← hyx]; exact hsb⟩
  refine ⟨v, p, t, h1, hp, ht, hts, ?_⟩
  intro ks a
  constructor
  · intro hk
    obtain ⟨b, hb, hsb⟩ := hone (ks, .leaf a) ((t.flat_spec false htd _ _).mpr ⟨hk, rfl, fun _ => ⟨_, rfl⟩⟩)
    cases hb
    exact hsb
  · intro hk
    obtain ⟨y, hy, hyx⟩ := hkeys s t hts.symm (ks, .leaf a) ((s.flat_spec false hd _ _).mpr ⟨hk, rfl, fun _ => ⟨_, rfl⟩⟩)
    obtain ⟨b, hb, hsb⟩ := hone y hy
    simp only at hyx
    rw [hyx, hk] at hsb
    cases hsb
    obtain ⟨h10, -, -⟩ := (t.flat_spec false htd y.1 y.2).mp hy
    rw [← hyx, h10, hb]

/-! ### Combining -/

/-- C46 (overlay): with equal templates the values of the other one win; with `strict` it fails exactly if both have a
value at some path; with different templates it fails. -/
theorem C46_overlay {α} (p other : Parts α) (strict : Bool) (hp : p.Ok) (ho : other.Ok) :
    (p.template ≠ other.template → p.overlay other strict = none) ∧
    (p.template = other.template →
      ((p.overlay other strict = none ↔ strict = true ∧ ∃ q, (p.lookup q).isSome = true ∧ (other.lookup q).isSome = true) ∧
      ∀ r, p.overlay other strict = some r → r.Ok ∧ r.template = p.template ∧ ∀ q, r.lookup q = (other.lookup q).or (p.lookup q))) := by
  constructor
  · intro h; simp [Parts.overlay, h]
  · intro h
    have hany : (p.present.any fun x => (Assoc.keys other.present).contains x.1) = true ↔
        ∃ q, (p.lookup q).isSome = true ∧ (other.lookup q).isSome = true := by
      simp only [List.any_eq_true, List.contains_iff_mem]
      constructor
      · rintro ⟨⟨k, v⟩, hx, hk⟩
        refine ⟨k, ?_, ?_⟩
        · rw [Parts.lookup, Assoc.get_of_mem _ hp.nodup k v hx]; rfl
        · obtain ⟨w, hw⟩ := (Assoc.mem_keys_iff _ _).mp hk
          rw [Parts.lookup, hw]; rfl
      · rintro ⟨q, h1, h2⟩
        obtain ⟨v, hv⟩ := Option.isSome_iff_exists.mp h1
        obtain ⟨w, hw⟩ := Option.isSome_iff_exists.mp h2
        exact ⟨(q, v), Assoc.mem_of_get _ _ _ hv, (Assoc.mem_keys_iff _ _).mpr ⟨w, hw⟩⟩
    constructor
    · rw [← hany]
      simp only [Parts.overlay, h, ne_eq, not_true_eq_false, if_false]
      cases strict with
      | false => simp
      | true => cases (p.present.any fun x => (Assoc.keys other.present).contains x.1) <;> simp
    · intro r hr
      simp only [Parts.overlay, h, ne_eq, not_true_eq_false, if_false] at hr
      split at hr
      · cases hr
      · cases hr
        have hget := fun q => get_foldl_put (fun a : α => a) other.present p.present q ho.nodup
        simp only [Option.map_id'] at hget
        refine ⟨⟨ho.distinct, ?_, ?_⟩, h.symm, hget⟩
        · have : ∀ (l d : List (List Name × α)), (Assoc.keys d).Nodup → (Assoc.keys (l.foldl (fun d x => Assoc.put d x.1 x.2) d)).Nodup := by
            intro l
            induction l with
            | nil => intro d hd; exact hd
            | cons x l ih => intro d hd; exact ih _ (Assoc.nodup_put d x.1 x.2 hd)
          exact this _ _ hp.nodup
        · intro x hx
          have h1 : x.1 ∈ Assoc.keys (other.present.foldl (fun d x => Assoc.put d x.1 x.2) p.present) := List.mem_map_of_mem hx
          obtain ⟨v, hv⟩ := (Assoc.mem_keys_iff _ _).mp h1
          rw [hget] at hv
          cases hl : Assoc.get other.present x.1 with
          | some w => exact Parts.lookup_path ho (a := w) hl
          | none =>
            rw [hl, Option.none_or] at hv
            have := Parts.lookup_path hp (a := v) hv
            rw [h] at this
            exact this

theorem get_filter {α} (P : List Name → Bool) (l : List (List Name × α)) (q : List Name) :
    Assoc.get (l.filter fun x => P x.1) q = if P q then Assoc.get l q else none := by
  induction l with
  | nil => simp
  | cons x l ih =>
    obtain ⟨k, v⟩ := x
    simp only [List.filter_cons]
    by_cases hk : k = q
    · subst hk
      cases hP : P k with
      | true => simp [Assoc.get]
      | false => simp [ih, hP]
    · cases hP : P k with
      | true => simp [Assoc.get, hk, ih]
      | false => simp [Assoc.get, hk, ih]

theorem ok_filter {α} {p : Parts α} (h : p.Ok) (P : List Name → Bool) : Parts.Ok ⟨p.template, p.present.filter fun x => P x.1⟩ :=
  ⟨h.distinct, h.nodup.sublist (List.filter_sublist.map _), fun x hx => h.sub x (List.mem_filter.mp hx).1⟩

theorem contains_keys {α} (l : List (List Name × α)) (q : List Name) : (Assoc.keys l).contains q = (Assoc.get l q).isSome := by
  rw [Bool.eq_iff_iff, List.contains_iff_mem, Assoc.mem_keys_iff, Option.isSome_iff_exists]

/-- C46 (intersection): the values of the first one at the paths where the second one has a value. -/
theorem C46_intersect {α} (p other : Parts α) (hp : p.Ok) :
    (p.template ≠ other.template → p.intersect other = none) ∧
    (p.template = other.template → ∃ r, p.intersect other = some r ∧ r.Ok ∧ r.template = p.template ∧
      ∀ q, r.lookup q = if (other.lookup q).isSome then p.lookup q else none) := by
  constructor
  · intro h; simp [Parts.intersect, h]
  · intro h
    refine ⟨⟨p.template, p.present.filter fun x => (Assoc.keys other.present).contains x.1⟩,
      by simp only [Parts.intersect, h, ne_eq, not_true_eq_false, if_false],
      ok_filter hp (fun q => (Assoc.keys other.present).contains q), rfl, ?_⟩
    intro q
    simp only [Parts.lookup]
    rw [get_filter (fun q => (Assoc.keys other.present).contains q), contains_keys]
    by_cases e : (Assoc.get other.present q).isSome = true <;> simp only [e, if_true, if_false]

/-- C46 (difference): the values of the first one at the paths where the second one has none. -/
theorem C46_sub {α} (p other : Parts α) (hp : p.Ok) :
    (p.template ≠ other.template → p.sub other = none) ∧
    (p.template = other.template → ∃ r, p.sub other = some r ∧ r.Ok ∧ r.template = p.template ∧
      ∀ q, r.lookup q = if (other.lookup q).isSome then none else p.lookup q) := by
  constructor
  · intro h; simp [Parts.sub, h]
  · intro h
    refine ⟨⟨p.template, p.present.filter fun x => !(Assoc.keys other.present).contains x.1⟩,
      by simp only [Parts.sub, h, ne_eq, not_true_eq_false, if_false],
      ok_filter hp (fun q => !(Assoc.keys other.present).contains q), rfl, ?_⟩
    intro q
    simp only [Parts.lookup]
    rw [get_filter (fun q => !(Assoc.keys other.present).contains q), contains_keys]
    by_cases e : (Assoc.get other.present q).isSome = true
    · simp only [e, Bool.not_true, Bool.false_eq_true, if_true, if_false]
    · simp only [Bool.not_eq_true] at e
      simp only [e, Bool.not_false, Bool.false_eq_true, if_true, if_false]

/-- C46 (splitting and joining): the difference and the intersection with any other one overlay, without conflict, to
the original. -/
theorem C46_split_join {α} (p other : Parts α) (hp : p.Ok) (h : p.template = other.template) :
    ∃ a b r, p.sub other = some a ∧ p.intersect other = some b ∧ a.overlay b true = some r ∧ ∀ q, r.lookup q = p.lookup q := by
  obtain ⟨a, h1, h2, h3, h4⟩ := (C46_sub p other hp).2 h
  obtain ⟨b, h5, h6, h7, h8⟩ := (C46_intersect p other hp).2 h
  obtain ⟨h9, h10⟩ := (C46_overlay a b true h2 h6).2 (by rw [h3, h7])
  have hne : a.overlay b true ≠ none := by
    intro e
    obtain ⟨-, q, h11, h12⟩ := h9.mp e
    rw [h4] at h11
    rw [h8] at h12
    cases ho : (other.lookup q).isSome <;> simp [ho] at h11 h12
  obtain ⟨r, hr⟩ := Option.ne_none_iff_exists'.mp hne
  obtain ⟨-, -, h13⟩ := h10 r hr
  refine ⟨a, b, r, h1, h5, hr, ?_⟩
  intro q
  rw [h13, h4, h8]
  cases ho : (other.lookup q).isSome <;> simp

/-! ### Selecting -/

theorem str_of_raw {k k' : Key} (h : k.raw = k'.raw) : k.str = k'.str := by
  cases k <;> cases k' <;> simp_all [Key.raw, Key.str, Key.name, Atom.toStr]
  all_goals (subst_vars; rfl)

theorem find_raw {α} : ∀ (f : Forest α), (f.keys.map Key.str).Nodup → ∀ k, k ∈ f.keys → f.find k.raw = f.get k
  | .nil, _, k, hk => by simp [Forest.keys] at hk
  | .cons k' t r, hn, k, hk => by
    simp only [Forest.keys, List.map_cons, List.nodup_cons] at hn
    simp only [Forest.keys, List.mem_cons] at hk
    simp only [Forest.find, Forest.get]
    by_cases e : k' = k
    · subst e; simp
    · have hkr : k ∈ r.keys := by
        rcases hk with rfl | hk
        · exact absurd rfl e
        · exact hk
      have : k'.raw ≠ k.raw := by
        intro e'
        exact hn.1 (by rw [str_of_raw e']; exact List.mem_map_of_mem hkr)
      simp [e, this, find_raw r hn.2 k hkr]

theorem Forest.get_distinct {α} : ∀ {f : Forest α} {k c}, f.Distinct → f.get k = some c → c.Distinct
  | .nil, _, _, _, h => by simp [Forest.get] at h
  | .cons k' t r, k, c, ho, h => by
    simp only [Forest.get] at h
    split at h
    · cases h; exact ho.1
    · exact Forest.get_distinct ho.2 h

theorem at_distinct {α} : ∀ (ks : List Key) (t v : Tree α), t.Distinct → t.at_ ks = some v → v.Distinct
  | [], t, v, h, e => by cases e; exact h
  | k :: ks, t, v, h, e => by
    cases t with
    | leaf a => cases e
    | node kd f =>
      simp only [Tree.at_, Option.bind_eq_some_iff] at e
      obtain ⟨c, h1, h2⟩ := e
      exact at_distinct ks c v (Forest.get_distinct h.2 h1) h2

theorem selectPath_raw {α} : ∀ (ks : List Key) (t v : Tree α), t.Distinct → t.at_ ks = some v → selectPath t (ks.map Key.raw) = some v
  | [], t, v, h, e => e
  | k :: ks, t, v, h, e => by
    cases t with
    | leaf a => cases e
    | node kd f =>
      simp only [Tree.at_, Option.bind_eq_some_iff] at e
      obtain ⟨c, h1, h2⟩ := e
      simp only [List.map_cons, selectPath, find_raw f h.1 k (Forest.get_mem h1), h1, Option.bind_some]
      exact selectPath_raw ks c v (Forest.get_distinct h.2 h1) h2

theorem getF_shape {α} : ∀ (f : Forest α) (k : Key), f.shape.get k = (f.get k).map Tree.shape
  | .nil, k => rfl
  | .cons k' t r, k => by
    simp only [Forest.shape, Forest.get]
    split
    · rfl
    · exact getF_shape r k

theorem at_shape {α} : ∀ (ks : List Key) (t : Tree α), t.shape.at_ ks = (t.at_ ks).map Tree.shape
  | [], t => rfl
  | k :: ks, t => by
    cases t with
    | leaf a => rfl
    | node kd f =>
      simp only [Tree.shape, Tree.at_, getF_shape]
      cases f.get k with
      | none => rfl
      | some c => exact at_shape ks c

theorem at_append {α} : ∀ (ks ls : List Key) (t : Tree α), t.at_ (ks ++ ls) = (t.at_ ks).bind fun v => v.at_ ls
  | [], ls, t => rfl
  | k :: ks, ls, t => by
    cases t with
    | leaf a => rfl
    | node kd f =>
      simp only [List.cons_append, Tree.at_]
      cases f.get k with
      | none => rfl
      | some c => exact at_append ks ls c

/-- C46 (selecting): the part under a path of the template has the structure of the template there, and the values of
the original under that path. -/
theorem C46_select {α} (p : Parts α) (h : p.Ok) (ks : List Key) (s : Tree Unit) (hs : p.template.at_ ks = some s) :
    ∃ r, p.select (ks.map Key.raw) = some r ∧ r.Ok ∧ r.template = s ∧
      ∀ ls, strPath ls ∈ leafPaths s → r.lookup (strPath ls) = p.lookup (strPath (ks ++ ls)) := by
  obtain ⟨u, h1, h2, h3⟩ := C46_unsafe p h
  have hud : u.Distinct := by rw [← shape_distinct, h2]; exact h.distinct
  have htd := getTemplate_distinct h
  have hst : ∃ t, p.getTemplate.at_ ks = some t ∧ t.shape = s := by
    have := at_shape ks p.getTemplate
    rw [getTemplate_shape, hs] at this
    obtain ⟨t, ht, e⟩ := Option.map_eq_some_iff.mp this.symm
    exact ⟨t, ht, e⟩
  have hsv : ∃ v, u.at_ ks = some v ∧ v.shape = s := by
    have := at_shape ks u
    rw [h2, hs] at this
    obtain ⟨t, ht, e⟩ := Option.map_eq_some_iff.mp this.symm
    exact ⟨t, ht, e⟩
  obtain ⟨t, ht, hts⟩ := hst
  obtain ⟨v, hv, hvs⟩ := hsv
  have htd' := at_distinct ks _ _ htd ht
  have hvd' := at_distinct ks _ _ hud hv
  have hi := C46_init t v htd' hvd'
  have hsome : (Parts.init t v).isSome = true := by
    rw [hi.1]
    intro ls a hl
    rw [leafPaths_eq (t := t) (u := v) (by rw [hts, hvs])]
    exact mem_leafPaths (x := (ls, .leaf (some a))) ((v.flat_spec false hvd' _ _).mpr ⟨hl, rfl, fun _ => ⟨_, rfl⟩⟩)
  obtain ⟨r, hr⟩ := Option.isSome_iff_exists.mp hsome
  obtain ⟨h4, h5, h6⟩ := hi.2 r hr
  refine ⟨r, ?_, h4, by rw [h5, hts], ?_⟩
  · simp only [Parts.select, h1, selectPath_raw ks _ _ htd ht]
    change (selectPath u (ks.map Key.raw)).bind (fun v => Parts.init t v) = some r
    rw [selectPath_raw ks _ _ hud hv, Option.bind_some, hr]
  · intro ls hls
    have hval : ∀ ls' w, v.at_ ls' = some (.leaf w) → w = p.lookup (strPath (ks ++ ls')) := by
      intro ls' w hw
      have hu : u.at_ (ks ++ ls') = some (.leaf w) := by rw [at_append, hv, Option.bind_some, hw]
      have := h3 (ks ++ ls', .leaf w) ((u.flat_spec false hud _ _).mpr ⟨hu, rfl, fun _ => ⟨_, rfl⟩⟩)
      simpa using this
    apply Option.ext
    intro a
    rw [h6]
    constructor
    · rintro ⟨ls', he, hw⟩
      have := hval ls' (some a) hw
      rw [strPath, List.map_append] at this ⊢
      simp only [strPath] at he
      rw [← he]
      exact this.symm
    · intro hl
      rw [← leafPaths_shape, ← hvs, shape_shape, leafPaths_shape] at hls
      obtain ⟨x, hx, e⟩ := List.mem_map.mp hls
      obtain ⟨h7, -, h8⟩ := (v.flat_spec false hvd' x.1 x.2).mp hx
      obtain ⟨w, hw⟩ := h8 rfl
      rw [hw] at h7
      refine ⟨x.1, e, ?_⟩
      rw [h7, hval x.1 w h7]
      simp only [strPath, List.map_append] at e hl ⊢
      rw [e, hl]

/-! ### Mapping, filtering, partitioning -/

theorem relabel_distinct {α β} (h : List Key → β) (t : Tree α) (p : List Key) (hd : t.Distinct) : (t.relabel h p).Distinct := by
  rw [← shape_distinct, relabel_shape, shape_distinct]; exact hd

/-- C46 (mapping over the leaves): the function is applied at every leaf of the template to what the arguments have
there, placeholders included; its result, unless a placeholder, is the value of the result. -/
theorem C46_map_leaves {α β} (f : List Name → List (Option α) → Option β) (x0 : Parts α) (xs : List (Parts α)) (h : x0.Ok) :
    (mapLeaves f x0 xs = none ↔ ∃ x ∈ xs, x0.template ≠ x.template) ∧
    ∀ r, mapLeaves f x0 xs = some r → r.Ok ∧ r.template = x0.template ∧
      ∀ q ∈ leafPaths x0.template, r.lookup q = f q ((x0 :: xs).map fun x => x.lookup q) := by
  have htd := getTemplate_distinct h
  let v := x0.getTemplate.relabel (fun p => f (strPath p) ((x0 :: xs).map fun x => Assoc.get x.present (strPath p))) []
  have hvd : v.Distinct := relabel_distinct _ _ _ htd
  have hvf : v.flat false = (x0.getTemplate.flat false).map fun x => (x.1, .leaf (f (strPath x.1) ((x0 :: xs).map fun y => Assoc.get y.present (strPath x.1)))) := by
    simp only [v, relabel_flat, List.nil_append]
  have hvs : v.shape = x0.template := by simp only [v, relabel_shape, getTemplate_shape]
  have hi := C46_init x0.getTemplate v htd hvd
  have hsome : (Parts.init x0.getTemplate v).isSome = true := by
    rw [hi.1]
    intro ks a hk
    have hm := mem_leafPaths (x := (ks, .leaf (some a))) ((v.flat_spec false hvd _ _).mpr ⟨hk, rfl, fun _ => ⟨_, rfl⟩⟩)
    rwa [leafPaths_eq (t := v) (u := x0.getTemplate) (by rw [hvs, getTemplate_shape])] at hm
  constructor
  · simp only [mapLeaves]
    split
    · next hany =>
      refine iff_of_true rfl ?_
      simp only [List.any_eq_true, decide_eq_true_eq] at hany
      exact hany
    · next hany =>
      refine iff_of_false ?_ ?_
      · intro e
        have e' : Parts.init x0.getTemplate v = none := e
        rw [e'] at hsome
        cases hsome
      · rintro ⟨x, hx, hne⟩
        exact hany (by simp only [List.any_eq_true, decide_eq_true_eq]; exact ⟨x, hx, hne⟩)
  · intro r hr
    simp only [mapLeaves] at hr
    split at hr
    · cases hr
    · obtain ⟨h1, h2, h3⟩ := hi.2 r hr
      refine ⟨h1, by rw [h2, getTemplate_shape], ?_⟩
      intro q hq
      apply Option.ext
      intro a
      rw [h3]
      constructor
      · rintro ⟨ks, rfl, hk⟩
        have hm : (ks, Tree.leaf (some a)) ∈ v.flat false := (v.flat_spec false hvd _ _).mpr ⟨hk, rfl, fun _ => ⟨_, rfl⟩⟩
        rw [hvf] at hm
        obtain ⟨y, -, e⟩ := List.mem_map.mp hm
        simp only [Prod.mk.injEq, Tree.leaf.injEq] at e
        rw [← e.1]
        exact e.2
      · intro ha
        rw [← getTemplate_paths] at hq
        obtain ⟨x, hx, rfl⟩ := List.mem_map.mp hq
        refine ⟨x.1, rfl, ?_⟩
        have hm : (x.1, Tree.leaf (f (strPath x.1) ((x0 :: xs).map fun y => Assoc.get y.present (strPath x.1)))) ∈ v.flat false := by
          rw [hvf]; exact List.mem_map.mpr ⟨x, hx, rfl⟩
        have := ((v.flat_spec false hvd _ _).mp hm).1
        rw [this]
        have e : f (strPath x.1) ((x0 :: xs).map fun y => Assoc.get y.present (strPath x.1)) = some a := ha
        rw [e]

theorem filterValues_eq {α} (p : Parts α) (keys : List (List Name)) :
    filterValues p keys = some ⟨p.template, p.present.filter fun x => keys.contains x.1⟩ := by
  have : Parts.empty (α := α) p.getTemplate = some ⟨p.getTemplate.shape, []⟩ := rfl
  simp only [filterValues, this, Option.map_some, getTemplate_shape]

/-- C46 (filtering): exactly the values at the given paths are kept. -/
theorem C46_filter_values {α} (p : Parts α) (h : p.Ok) (keys : List (List Name)) :
    ∃ r, filterValues p keys = some r ∧ r.Ok ∧ r.template = p.template ∧ ∀ q, r.lookup q = if q ∈ keys then p.lookup q else none := by
  refine ⟨_, filterValues_eq p keys, ok_filter h (fun q => keys.contains q), rfl, ?_⟩
  intro q
  simp only [Parts.lookup]
  rw [get_filter (fun q => keys.contains q)]
  simp only [List.contains_iff_mem]

theorem classes_spec {α γ} [DecidableEq γ] (c : α → γ) (l : List (List Name × α)) :
    ∀ (d : List (γ × List (List Name))) (seen : List (List Name × α)),
      (Assoc.keys d).Nodup → (∀ k, k ∈ Assoc.keys d ↔ ∃ x ∈ seen, c x.2 = k) →
      (∀ k ps, Assoc.get d k = some ps → ∀ q, q ∈ ps ↔ ∃ x ∈ seen, c x.2 = k ∧ x.1 = q) →
      let d' := l.foldl (fun d x => Assoc.put d (c x.2) (((Assoc.get d (c x.2)).getD []) ++ [x.1])) d
      (Assoc.keys d').Nodup ∧ (∀ k, k ∈ Assoc.keys d' ↔ ∃ x ∈ seen ++ l, c x.2 = k) ∧
        (∀ k ps, Assoc.get d' k = some ps → ∀ q, q ∈ ps ↔ ∃ x ∈ seen ++ l, c x.2 = k ∧ x.1 = q) := by
  induction l with
  | nil => intro d seen h1 h2 h3; rw [List.append_nil]; exact ⟨h1, h2, h3⟩
  | cons x l ih =>
    intro d seen h1 h2 h3
    have := ih (Assoc.put d (c x.2) (((Assoc.get d (c x.2)).getD []) ++ [x.1])) (seen ++ [x]) (Assoc.nodup_put _ _ _ h1) ?_ ?_
    · simpa [List.append_assoc] using this
    · intro k
      rw [Assoc.mem_keys_put, h2]
      simp only [List.mem_append, List.mem_singleton]
      constructor
      · rintro (rfl | ⟨y, hy, e⟩)
        · exact ⟨x, .inr rfl, rfl⟩
        · exact ⟨y, .inl hy, e⟩
      · rintro ⟨y, hy | rfl, e⟩
        · exact .inr ⟨y, hy, e⟩
        · exact .inl e.symm
    · intro k ps hps q
      rw [Assoc.get_put] at hps
      by_cases hk : k = c x.2
      · subst hk
        simp only [if_true, Option.some.injEq] at hps
        subst hps
        simp only [List.mem_append, List.mem_singleton]
        have hold : q ∈ (Assoc.get d (c x.2)).getD [] ↔ ∃ y ∈ seen, c y.2 = c x.2 ∧ y.1 = q := by
          cases hg : Assoc.get d (c x.2) with
          | some ps => exact h3 _ ps hg q
          | none =>
            simp only [Option.getD_none, List.not_mem_nil, false_iff]
            rintro ⟨y, hy, e, -⟩
            exact ((Assoc.get_eq_none_iff d _).mp hg) ((h2 _).mpr ⟨y, hy, e⟩)
        rw [hold]
        constructor
        · rintro (⟨y, hy, e⟩ | rfl)
          · exact ⟨y, .inl hy, e⟩
          · exact ⟨x, .inr rfl, rfl, rfl⟩
        · rintro ⟨y, hy | rfl, e1, e2⟩
          · exact .inl ⟨y, hy, e1, e2⟩
          · exact .inr e2.symm
      · simp only [hk, if_false] at hps
        rw [h3 k ps hps q]
        simp only [List.mem_append, List.mem_singleton]
        constructor
        · rintro ⟨y, hy, e⟩; exact ⟨y, .inl hy, e⟩
        · rintro ⟨y, hy | rfl, e1, e2⟩
          · exact ⟨y, hy, e1, e2⟩
          · exact absurd e1.symm hk

/-- C46 (partitioning): there is one part for each class of a present value, over the same template; the part of a
class has exactly the values of that class.  So the parts are disjoint and together give the original. -/
theorem C46_partition {α γ} [DecidableEq γ] (c : α → γ) (p : Parts α) (h : p.Ok) :
    ∃ m, partition c p = some m ∧ (m.map (·.1)).Nodup ∧ (∀ k, k ∈ m.map (·.1) ↔ ∃ q a, p.lookup q = some a ∧ c a = k) ∧
      ∀ k r, (k, r) ∈ m → r.Ok ∧ r.template = p.template ∧ ∀ q a, r.lookup q = some a ↔ p.lookup q = some a ∧ c a = k := by
  obtain ⟨h1, h2, h3⟩ := classes_spec c p.present [] [] (by simp [Assoc.keys]) (by simp [Assoc.keys]) (by simp)
  simp only [List.nil_append] at h1 h2 h3
  have hmap : ∀ l : List (γ × List (List Name)), (l.mapM fun x => (filterValues p x.2).map fun r => (x.1, r)) =
      some (l.map fun x => (x.1, (⟨p.template, p.present.filter fun y => x.2.contains y.1⟩ : Parts α))) := by
    intro l
    induction l with
    | nil => rfl
    | cons x l ih => rw [List.mapM_cons, ih, filterValues_eq]; rfl
  have hmem : ∀ x ∈ p.present, p.lookup x.1 = some x.2 := fun x hx => Assoc.get_of_mem _ h.nodup _ _ hx
  refine ⟨_, hmap _, by rw [List.map_map]; exact h1, ?_, ?_⟩
  · intro k
    have : (List.map (·.1) (List.map (fun x : γ × List (List Name) => (x.1, (⟨p.template, p.present.filter fun y => x.2.contains y.1⟩ : Parts α))) (classes c p.present)))
        = Assoc.keys (classes c p.present) := by simp [Assoc.keys, List.map_map, Function.comp_def]
    rw [this]
    have h2' := h2 k
    constructor
    · intro hk
      obtain ⟨x, hx, e⟩ := h2'.mp hk
      exact ⟨x.1, x.2, hmem x hx, e⟩
    · rintro ⟨q, a, hq, e⟩
      exact h2'.mpr ⟨(q, a), Assoc.mem_of_get _ _ _ hq, e⟩
  · intro k r hkr
    obtain ⟨⟨k', ps⟩, hx, e⟩ := List.mem_map.mp hkr
    simp only [Prod.mk.injEq] at e
    obtain ⟨rfl, rfl⟩ := e
    refine ⟨ok_filter h (fun q => ps.contains q), rfl, ?_⟩
    intro q a
    simp only [Parts.lookup]
    rw [get_filter (fun q => ps.contains q)]
    have hps := h3 k' ps (Assoc.get_of_mem _ h1 _ _ hx) q
    simp only [List.contains_iff_mem]
    by_cases hq : q ∈ ps
    · simp only [hq, if_true]
      obtain ⟨x, hx', e1, e2⟩ := hps.mp hq
      constructor
      · intro hl
        refine ⟨hl, ?_⟩
        have := hmem x hx'
        rw [e2] at this
        have e3 : Assoc.get p.present q = some x.2 := this
        rw [hl] at e3
        cases e3
        exact e1
      · exact fun hl => hl.1
    · simp only [hq, if_false]
      constructor
      · intro e; cases e
      · rintro ⟨hl, e⟩
        exact absurd (hps.mpr ⟨(q, a), Assoc.mem_of_get _ _ _ hl, e, rfl⟩) hq

/-! Non-vacuity: `PartsOf({'a': X, 'b': [X, X]}, {'a': 1, 'b': [..., 3]})`. -/

def exValue : Tree (Option Nat) := dictNode [(['a'], .leaf (some 1)), (['b'], .node (.custom ['C']) (.cons (.attr ['x']) (.leaf none) (.cons (.attr ['y']) (.leaf (some 3)) .nil)))]
def exParts : Parts Nat := ⟨exValue.shape, [([['a']], 1), ([['b'], ['y']], 3)]⟩

example : exValue.Distinct := by
  simp [exValue, dictNode, Forest.ofList, Tree.Distinct, Forest.Distinct, Forest.keys, Key.str, Key.name, Atom.toStr]
example : Parts.fromStructure exValue = some exParts := rfl
example : exParts.Ok := (C46_init exValue exValue (by
  simp [exValue, dictNode, Forest.ofList, Tree.Distinct, Forest.Distinct, Forest.keys, Key.str, Key.name, Atom.toStr]) (by
  simp [exValue, dictNode, Forest.ofList, Tree.Distinct, Forest.Distinct, Forest.keys, Key.str, Key.name, Atom.toStr])).2 exParts rfl |>.1
example : exParts.full = none ∧ exParts.unsafe = some exValue := by constructor <;> rfl
example : (partition (· % 2) exParts).map (·.length) = some 1 := rfl

end Verif.Trees
