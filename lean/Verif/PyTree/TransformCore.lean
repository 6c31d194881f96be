import Verif.PyTree.TransformLemmas

/-!
# The tree that a restore with transforms loads
-/

namespace Verif.PyTree

open Verif Verif.Trees Verif.TreeMetadata

theorem mapM_pairs {κ β γ} {F : κ → β → Option γ} : ∀ (l : List (κ × β)) (d : List (κ × γ)),
    (l.mapM fun x => (F x.1 x.2).map fun v => (x.1, v)) = some d → d.map (·.1) = l.map (·.1) ∧ ∀ x ∈ l, ∃ v, F x.1 x.2 = some v ∧ (x.1, v) ∈ d
  | [], d, h => by
    simp at h; subst h; simp
  | x :: l, d, h => by
    simp only [List.mapM_cons, Option.bind_eq_bind, Option.bind_eq_some_iff, Option.map_eq_some_iff, Option.pure_def, Option.some.injEq] at h
    obtain ⟨y, ⟨v, h1, rfl⟩, d', h2, rfl⟩ := h
    obtain ⟨h3, h4⟩ := mapM_pairs l d' h2
    refine ⟨by simp [h3], ?_⟩
    intro z hz
    rcases List.mem_cons.mp hz with rfl | hz
    · exact ⟨v, h1, List.mem_cons_self⟩
    · obtain ⟨w, h5, h6⟩ := h4 z hz
      exact ⟨w, h5, List.mem_cons_of_mem _ h6⟩

theorem mapM_congr' {α β} {F G : α → Option β} : ∀ (l : List α), (∀ x ∈ l, F x = G x) → l.mapM F = l.mapM G
  | [], _ => rfl
  | x :: l, h => by
    simp only [List.mapM_cons, h x List.mem_cons_self, mapM_congr' l fun y hy => h y (List.mem_cons_of_mem _ hy)]

section
variable {V D : Type} (C : Codec V D) (params : List (Name × D)) (R : Request V)

/-- What is loaded for the parameter at a path with the metadata `e`. -/
def Request.load (q : List Key) (e : Tree P) : Option (Tree (Got V)) :=
  loadLeaf C params R.fm R.dto (toFlat true R.item) (toFlat true R.args) (toFlat false R.rules) (strPath q) e

/-- The loaded tree. -/
def Request.tree (M : Tree P) : Option (Tree (Got V)) := loadTree C params R.fm R.dto M R.item R.args R.rules

theorem load_leaf (q : List Key) (e : P) : R.load C params q (.leaf e) = match R.plan q with
    | none => none
    | some none => some (.leaf (.entry e))
    | some (some a) => (readNamed C params (strPath q) e a).map .leaf := rfl

theorem tree_some {M : Tree P} (hd : M.Distinct) {T : Tree (Got V)} (h : R.tree C params M = some T) :
    T.shape = M.shape ∧ ∀ q e, M.at_ q = some (.leaf e) → ∃ g, R.load C params q (.leaf e) = some (.leaf g) ∧ T.at_ q = some (.leaf g) := by
  simp only [Request.tree, loadTree, Option.bind_eq_bind, Option.bind_eq_some_iff] at h
  obtain ⟨d, h1, h2⟩ := h
  have h3 := mapM_pairs (F := fun key m => loadLeaf C params R.fm R.dto (toFlat true R.item) (toFlat true R.args) (toFlat false R.rules) key m) _ d h1
  have hn : (Assoc.keys d).Nodup := by
    simp only [Assoc.keys]
    rw [h3.1]
    exact (C40_flat_entries true M hd [] (.node .none .nil)).2
  rw [C40_target d M hd] at h2
  have hl : ∀ q e, M.at_ q = some (.leaf e) → ∃ g, R.load C params q (.leaf e) = some (.leaf g) ∧ Assoc.get d (strPath q) = some (.leaf g) := by
    intro q e hq
    obtain ⟨v, h4, h5⟩ := h3.2 (strPath q, .leaf e) ((mem_toFlat hd _ _).mpr ⟨q, rfl, hq, rfl⟩)
    have h6 : R.load C params q (.leaf e) = some v := h4
    have : ∃ g, v = .leaf g := by
      rw [load_leaf] at h6
      split at h6
      · cases h6
      · cases h6; exact ⟨_, rfl⟩
      · obtain ⟨g, _, rfl⟩ := Option.map_eq_some_iff.mp h6
        exact ⟨g, rfl⟩
    obtain ⟨g, rfl⟩ := this
    exact ⟨g, h6, Assoc.get_of_mem d hn _ _ h5⟩
  obtain ⟨T', h4, h5, _⟩ := mapPath_some (fun p => Assoc.get d (strPath p)) M [] (by
    intro x hx
    obtain ⟨e, _, he⟩ := flat_leaf hd (p := x.1) (v := x.2) hx
    obtain ⟨g, _, hg⟩ := hl x.1 e he
    exact ⟨g, by simpa using hg⟩)
  rw [h2] at h4
  cases h4
  refine ⟨h5, fun q e hq => ?_⟩
  obtain ⟨g, h6, h7⟩ := hl q e hq
  refine ⟨g, h6, ?_⟩
  rw [(mapPath_at _ M [] T h2 q).1 e hq]
  exact h7

theorem tree_isSome {M : Tree P} (hd : M.Distinct) (h : ∀ x ∈ M.flat true, (R.load C params x.1 x.2).isSome = true) :
    (R.tree C params M).isSome = true := by
  have h0 : ((toFlat true M).mapM fun x => (loadLeaf C params R.fm R.dto (toFlat true R.item) (toFlat true R.args) (toFlat false R.rules) x.1 x.2).map
      fun v => (x.1, v)).isSome = true := by
    apply mapM_isSome
    intro x hx
    rw [Option.isSome_map]
    rw [toFlat_eq true M hd] at hx
    obtain ⟨y, hy, rfl⟩ := List.mem_map.mp hx
    exact h y hy
  obtain ⟨d, h1⟩ := Option.isSome_iff_exists.mp h0
  have h3 := mapM_pairs (F := fun key m => loadLeaf C params R.fm R.dto (toFlat true R.item) (toFlat true R.args) (toFlat false R.rules) key m) _ d h1
  have e : R.tree C params M = fromFlatTarget d M := by
    simp only [Request.tree, loadTree, Option.bind_eq_bind]
    have : ((toFlat true M).mapM fun (key, m) => (loadLeaf C params R.fm R.dto (toFlat true R.item) (toFlat true R.args) (toFlat false R.rules) key m).map
      fun v => (key, v)) = some d := h1
    rw [this]
    rfl
  rw [e, C40_target d M hd]
  apply mapPath_isSome
  intro x hx
  rw [List.nil_append, Option.isSome_iff_exists, ← Assoc.mem_keys_iff]
  simp only [Assoc.keys]
  rw [h3.1]
  obtain ⟨a, ha, hp⟩ := flat_leaf hd (p := x.1) (v := x.2) hx
  exact List.mem_map_of_mem (f := (·.1)) ((mem_toFlat hd (strPath x.1) (.leaf a)).mpr ⟨x.1, rfl, hp, rfl⟩)

theorem tree_congr {M : Tree P} (hd : M.Distinct) (params' : List (Name × D)) (h : ∀ x ∈ M.flat true, R.load C params x.1 x.2 = R.load C params' x.1 x.2) :
    R.tree C params M = R.tree C params' M := by
  simp only [Request.tree, loadTree]
  rw [mapM_congr' (toFlat true M)]
  intro x hx
  rw [toFlat_eq true M hd] at hx
  obtain ⟨y, hy, rfl⟩ := List.mem_map.mp hx
  have := h y hy
  simp only [Request.load] at this
  simp only [this]

end

/-- The decision depends on the names only. -/
theorem plan_norm {V} (R : Request V) (q : List Key) : R.plan (q.map normKey) = R.plan q := by
  simp only [Request.plan, strPath_norm]

theorem slash_norm (q : List Key) : slashName (q.map normKey) = slashName q := by simp only [slashName, strPath_norm]

/-- The rules as `apply_transformations` sees them. -/
def Request.wrapped {V} (R : Request V) : Tree (Rule (Got V)) := Tree.map (RRule.wrap (toFlatSep ['/'] false R.args)) R.rules

/-- Restoring. -/
def Request.restore {V D} (R : Request V) (C : Codec V D) (o : Options) (ck : Ckpt D) : Option (Tree (Got V)) :=
  restoreT C o ck R.fm R.dto (some R.item) (some R.args) R.rules

theorem restore_eq {V D} {C : Codec V D} {o : Options} {t : Tree V} {ck : Ckpt D} {M : Py} (hM : Meta C o t ck M) (R : Request V) :
    R.restore C o ck = (R.tree C ck.params M).bind fun T => applyTransformations R.fm R.dto T R.wrapped (Tree.map Got.value R.item) := by
  obtain ⟨m, h1, h2⟩ := hM.read
  simp only [Request.restore, restoreT, h1, h2, Option.bind_eq_bind, Option.bind_some]
  rfl

mutual
theorem map_flat {α β} (g : α → β) (keep : Bool) : ∀ t : Tree α, (Tree.map g t).flat keep = (t.flat keep).map fun x => (x.1, Tree.map g x.2)
  | .leaf a => rfl
  | .node k .nil => by cases keep <;> rfl
  | .node k (.cons k' t r) => by
    have := mapF_flat g keep (.cons k' t r)
    cases keep <;> simpa [Tree.map, Forest.map, Tree.flat, Forest.isEmpty] using this
theorem mapF_flat {α β} (g : α → β) (keep : Bool) : ∀ f : Forest α, (Forest.map g f).flat keep = (f.flat keep).map fun x => (x.1, Tree.map g x.2)
  | .nil => rfl
  | .cons k t r => by
    simp only [Forest.map, Forest.flat, map_flat g keep t, mapF_flat g keep r, List.map_append, List.map_map]
    rfl
end

mutual
theorem map_shape {α β} (g : α → β) : ∀ t : Tree α, (Tree.map g t).shape = t.shape
  | .leaf a => rfl
  | .node k f => by simp [Tree.map, Tree.shape, mapF_shape g f]
theorem mapF_shape {α β} (g : α → β) : ∀ f : Forest α, (Forest.map g f).shape = f.shape
  | .nil => rfl
  | .cons k t r => by simp [Forest.map, Forest.shape, map_shape g t, mapF_shape g r]
end

theorem map_distinct {α β} (g : α → β) (t : Tree α) (h : t.Distinct) : (Tree.map g t).Distinct := by
  rw [← shape_distinct, map_shape, shape_distinct]; exact h

theorem map_leaf {α β} (g : α → β) {t : Tree α} {p : List Key} {b : β} (h : (Tree.map g t).at_ p = some (.leaf b)) :
    ∃ a, t.at_ p = some (.leaf a) ∧ g a = b := by
  rw [map_at] at h
  obtain ⟨u, h1, h2⟩ := Option.map_eq_some_iff.mp h
  cases u with
  | leaf a => simp only [Tree.map, Tree.leaf.injEq] at h2; exact ⟨a, h1, h2⟩
  | node k f => simp [Tree.map] at h2

theorem namesApart_shape {α β} {t : Tree α} {u : Tree β} (h : u.shape = t.shape) (hn : NamesApart t) : NamesApart u := by
  intro p q a b hp hq e
  obtain ⟨a', ha⟩ := leaf_of_shape h.symm hp
  obtain ⟨b', hb⟩ := leaf_of_shape h.symm hq
  exact hn p q a' b' ha hb e

theorem rulesOf_map {V} (R : Request V) : rulesOf R.wrapped = R.list.map fun x => (x.1, x.2.wrap (toFlatSep ['/'] false R.args)) := by
  simp only [rulesOf, Request.wrapped, map_flat, Request.list, List.filterMap_map, List.map_filterMap]
  congr 1
  funext x
  obtain ⟨p, u⟩ := x
  cases u with
  | leaf r => rfl
  | node k f => rfl

/-- The names of the parameters of a checkpoint differ. -/
def SavedApart {V} (t : Tree V) : Prop := ∀ x ∈ t.flat true, ∀ y ∈ t.flat true, slashName x.1 = slashName y.1 → x.1 = y.1

theorem meta_apart {V D} {C : Codec V D} {o : Options} {t : Tree V} {ck : Ckpt D} {M : Py} (hM : Meta C o t ck M) (ht : SavedApart t) : NamesApart M := by
  intro p q a b hp hq e
  obtain ⟨x, hx, rfl, -⟩ := (hM.leaves p a).mp hp
  obtain ⟨y, hy, rfl, -⟩ := (hM.leaves q b).mp hq
  rw [slash_norm, slash_norm] at e
  rw [ht x hx y hy e]

end Verif.PyTree
