import Verif.PyTree.Core

/-!
# Property C85: a saved tree is restored
-/

namespace Verif.PyTree

open Verif Verif.Trees Verif.TreeMetadata

/-! ### Specification -/

mutual
/-- The tree that is expected when a tree was saved: its values are unchanged; an empty named tuple or an empty object of a registered class is
`None`. -/
def Tree.expected {V} : Tree V → Tree (Option V)
  | .leaf v => .leaf (some v)
  | .node k f => .node (if f.isEmpty then stdKind k else k) (Forest.expected f)
def Forest.expected {V} : Forest V → Forest (Option V)
  | .nil => .nil
  | .cons k t r => .cons k (Tree.expected t) (Forest.expected r)
end

/-- Two trees are similar: written with dictionaries and lists, they have the same leaves (or empty containers) and the same containers at the same
paths. -/
def Similar {α β} (s : Tree α) (t : Tree β) : Prop := ∀ q, (s.plain.at_ q).map nodeKind = (t.plain.at_ q).map nodeKind

/-- `r` is the item `i` with the values of `t`: the same containers as in the item, and at every leaf of the item what `t` has under the same names. -/
structure Restored {V α} (t : Tree V) (i : Tree α) (r : Tree (Option V)) : Prop where
  nodes : ∀ p kd f, i.at_ p = some (.node kd f) → ∃ f', r.at_ p = some (.node kd f') ∧ f'.keys = f.keys
  leaves : ∀ p a, i.at_ p = some (.leaf a) → ∃ q u, strPath q = strPath p ∧ t.at_ q = some u ∧ u.emptyOrLeaf = true ∧ r.at_ p = some (Tree.expected u)

/-! ### Lemmas -/

theorem expectedF_isEmpty {V} (f : Forest V) : (Forest.expected f).isEmpty = f.isEmpty := by cases f <;> rfl

theorem expectedF_get {V} (k : Key) : ∀ f : Forest V, (Forest.expected f).get k = (f.get k).map Tree.expected
  | .nil => rfl
  | .cons k' t r => by
    simp only [Forest.expected, Forest.get]
    split
    · rfl
    · exact expectedF_get k r

theorem expected_at {V} : ∀ (p : List Key) (t : Tree V), (Tree.expected t).at_ p = (t.at_ p).map Tree.expected
  | [], _ => rfl
  | k :: p, .leaf _ => rfl
  | k :: p, .node kd f => by
    simp only [Tree.expected, Tree.at_, expectedF_get]
    cases f.get k with
    | none => rfl
    | some c => exact expected_at p c

mutual
theorem expected_plain {V} : ∀ t : Tree V, (Tree.expected t).plain = Tree.expected t.plain
  | .leaf _ => rfl
  | .node k .nil => rfl
  | .node k (.cons k' t r) => by
    simp only [Tree.expected, Forest.expected, Tree.plain]
    split
    · simp [Tree.expected, Forest.expected, Forest.isEmpty, expected_plain t, expected_plainDict r]
    · simp [Tree.expected, Forest.expected, Forest.isEmpty, expected_plain t, expected_plainList r]
theorem expected_plainDict {V} : ∀ f : Forest V, (Forest.expected f).plainDict = Forest.expected f.plainDict
  | .nil => rfl
  | .cons k t r => by simp [Forest.expected, Forest.plainDict, expected_plain t, expected_plainDict r]
theorem expected_plainList {V} : ∀ (f : Forest V) (i : Nat), (Forest.expected f).plainList i = Forest.expected (f.plainList i)
  | .nil, _ => rfl
  | .cons k t r, i => by simp [Forest.expected, Forest.plainList, expected_plain t, expected_plainList r]
end

theorem mapPathF_get {α β} (g : List Key → Option (Tree β)) (key : Key) : ∀ (f : Forest α) (pre : List Key) (f' : Forest β),
    f.mapPath false g pre = some f' → (f.get key = none → f'.get key = none) ∧
      ∀ c, f.get key = some c → ∃ c', c.mapPath false g (pre ++ [key]) = some c' ∧ f'.get key = some c'
  | .nil, pre, f', h => by
    simp only [Forest.mapPath, Option.some.injEq] at h
    subst h
    simp [Forest.get]
  | .cons k t r, pre, f', h => by
    simp only [Forest.mapPath, Option.bind_eq_bind, Option.bind_eq_some_iff, Option.pure_def, Option.some.injEq] at h
    obtain ⟨t', ht, r', hr, rfl⟩ := h
    have ih := mapPathF_get g key r pre r' hr
    simp only [Forest.get]
    by_cases hk : k = key
    · subst hk
      simp only [if_true]
      exact ⟨by simp, fun c hc => by cases hc; exact ⟨t', ht, rfl⟩⟩
    · simp only [hk, if_false]
      exact ih

/-- Where leaves are replaced by leaves and empty nodes, nothing is added. -/
theorem mapPath_at_none {α β} (g : List Key → Option (Tree β)) : ∀ (p : List Key) (t : Tree α) (pre : List Key) (r : Tree β),
    (∀ q a u, t.at_ q = some (.leaf a) → g (pre ++ q) = some u → u.emptyOrLeaf = true) → t.mapPath false g pre = some r →
    t.at_ p = none → r.at_ p = none
  | [], t, pre, r, _, _, h => by cases t <;> cases h
  | k :: p, .leaf a, pre, r, hg, hr, _ => by
    have := hg [] a r rfl (by simpa [Tree.mapPath] using hr)
    cases r with
    | leaf _ => rfl
    | node kd f => cases f with
      | nil => rfl
      | cons => cases this
  | k :: p, .node kd f, pre, r, hg, hr, h => by
    simp only [Tree.mapPath, Bool.false_and, Bool.false_eq_true, if_false, Option.map_eq_some_iff] at hr
    obtain ⟨f', hf, rfl⟩ := hr
    obtain ⟨h1, h2⟩ := mapPathF_get g k f pre f' hf
    simp only [Tree.at_] at h ⊢
    cases hc : f.get k with
    | none => rw [h1 hc]; rfl
    | some c =>
      obtain ⟨c', h3, h4⟩ := h2 c hc
      rw [hc, Option.bind_some] at h
      rw [h4, Option.bind_some]
      refine mapPath_at_none g p c (pre ++ [k]) c' ?_ h3 h
      intro q a u h5 h6
      exact hg (k :: q) a u (by simp [Tree.at_, hc, h5]) (by simpa using h6)

/-- The metadata found for a leaf of the item. -/
def entryAt (M : Py) (p : List Key) : Option P := match M.at_ (p.map normKey) with
  | some (.leaf e) => some e
  | _ => none

theorem walk_meta {M : Py} (hM : Tree.Norm M) {p : List Key} {e : P} (h : M.at_ (p.map normKey) = some (.leaf e)) :
    walk (Tree.map some M) p = some (.leaf (entryAt M p)) := by
  refine walk_of_at p _ _ (map_pl some M (norm_pl M hM)) ?_
  rw [map_at, h]
  simp [entryAt, h, Tree.map]

/-- The kinds at the paths of two trees for which `tree_difference` finds nothing. -/
theorem agree_clip {α β} (f : α → Bool) (g : β → Bool) (a : Option (Tree α)) (b : Option (Tree β)) :
    Agree (fun _ _ => true) (a.map (Tree.clip f)) (b.map (Tree.clip g)) ↔ a.map nodeKind = b.map nodeKind := by
  have key : ∀ {γ} (h : γ → Bool) (u : Tree γ), (∃ x, Tree.clip h u = .leaf x ∧ nodeKind u = none) ∨
      ∃ k e, Tree.clip h u = .node k e ∧ nodeKind u = some k := by
    intro γ h u
    cases u with
    | leaf x => exact .inl ⟨_, rfl, rfl⟩
    | node k e => cases e with
      | nil => exact .inl ⟨_, rfl, rfl⟩
      | cons => exact .inr ⟨_, _, rfl, rfl⟩
  cases a with
  | none => cases b with
    | none => simp [Agree]
    | some b => rcases key g b with ⟨x, h1, h2⟩ | ⟨k, e, h1, h2⟩ <;> simp [h1, h2, Agree]
  | some a =>
    rcases key f a with ⟨x, h1, h2⟩ | ⟨k, e, h1, h2⟩ <;> cases b with
    | none => simp [h1, h2, Agree]
    | some b => rcases key g b with ⟨y, h3, h4⟩ | ⟨k', e', h3, h4⟩ <;> simp [h1, h2, h3, h4, Agree]

mutual
theorem clip_ok {α} (fields : Name → List Name) (ph : α → Bool) : ∀ t : Tree α, Tree.Pl t → (Tree.clip ph t).Ok fields
  | .leaf _, _ => trivial
  | .node k .nil, _ => trivial
  | .node k (.cons k' t r), h => by
    have := clipF_ok fields ph (.cons k' t r) h.2
    have hk := clipF_keys ph (.cons k' t r)
    simp only [Tree.clip, Forest.isEmpty, Bool.false_eq_true, if_false]
    refine ⟨?_, this⟩
    rw [hk]
    rcases h.1 with h | ⟨rfl, -, h2⟩ | ⟨rfl, h2⟩
    · cases h
    · exact ⟨h2, trivial⟩
    · exact ⟨(seqFrom_names _ _ h2).1, h2⟩
theorem clipF_ok {α} (fields : Name → List Name) (ph : α → Bool) : ∀ f : Forest α, Forest.Pl f → (Forest.clip ph f).Ok fields
  | .nil, _ => trivial
  | .cons _ t r, h => ⟨clip_ok fields ph t h.1, clipF_ok fields ph r h.2⟩
end

/-- `tree_difference` finds nothing exactly for similar trees. -/
theorem difference_none_iff {V α D} {C : Codec V D} {o : Options} {t : Tree V} {ck : Ckpt D} {M : Py} (hM : Meta C o t ck M) (i : Tree (Option α))
    (hi : i.KeysOk) : difference i.plain M = none ↔ Similar i t := by
  simp only [difference]
  rw [C43_none_iff (fields := fun _ => []) _ _ _ (clip_ok _ _ _ (plain_pl i hi)) (clip_ok _ _ _ (norm_pl M hM.norm))]
  refine forall_congr' fun q => ?_
  rw [clip_at, clip_at, agree_clip, hM.kinds]

/-- At a leaf of a similar item the checkpoint has a value or an empty container. -/
theorem similar_leaf {V α D} {C : Codec V D} {o : Options} {t : Tree V} {ck : Ckpt D} {M : Py} (hM : Meta C o t ck M) (hk : t.KeysOk) (i : Tree α)
    (hi : i.KeysOk) (p : List Key) (a : α) (hp : i.at_ p = some (.leaf a)) (hs : (i.plain.at_ (p.map normKey)).map nodeKind = (t.plain.at_ (p.map normKey)).map nodeKind) :
    ∃ x ∈ t.flat true, x.1.map normKey = p.map normKey ∧ M.at_ (p.map normKey) = some (.leaf (.entry (valueOf C x.2))) := by
  have h1 := (i.flat_spec true (keysOk_distinct i hi) p (.leaf a)).mpr ⟨hp, rfl, by simp⟩
  have h2 := (plain_at_iff i hi (p.map normKey) (.leaf a) rfl).mpr ⟨_, h1, rfl, rfl⟩
  rw [h2] at hs
  cases hc : t.plain.at_ (p.map normKey) with
  | none => rw [hc] at hs; cases hs
  | some u =>
    rw [hc] at hs
    simp only [Option.map_some, nodeKind, Option.some.injEq] at hs
    have he : u.emptyOrLeaf = true := by
      cases u with
      | leaf => rfl
      | node k f => cases f with
        | nil => rfl
        | cons => simp [Forest.isEmpty] at hs
    obtain ⟨x, hx, e1, e2⟩ := (plain_at_iff t hk _ u he).mp hc
    exact ⟨x, hx, e1, (hM.leaves _ _).mpr ⟨x, hx, e1, rfl⟩⟩

/-! ### Theorems -/

/-- C85 (restoring without an item): whatever the order in which the parameters were written, restoring gives the saved values in dictionaries and
lists. -/
theorem C85_restore {V D} (C : Codec V D) (hC : Faithful C) (o : Options) (t : Tree V) (ck : Ckpt D) (part : Bool) (hk : t.KeysOk)
    (hn : (paramNames false t).Nodup) (hs : Saved C o t ck) :
    ∃ r, restore C o ck part none none = some r ∧ SameValue r (Tree.expected t).plain := by
  obtain ⟨M, hM⟩ := saved_meta C o t ck hC hk hs
  obtain ⟨m, h1, h2⟩ := hM.read
  have hpl := norm_pl M hM.norm
  have hMk := pl_keysOk M hpl
  have hMd := keysOk_distinct M hMk
  have hleaf : ∀ p e, M.at_ p = some (.leaf e) → ∃ x ∈ t.flat true, x.1.map normKey = p ∧ entryAt M p = some (.entry (valueOf C x.2)) ∧
      leafResult C ck.params p (entryAt M p) none = some (Tree.expected x.2) := by
    intro p e hp
    obtain ⟨x, hx, e1, rfl⟩ := (hM.leaves p e).mp hp
    have hpp := pl_path p M _ hpl hp
    have e2 : entryAt M p = some (.entry (valueOf C x.2)) := by simp [entryAt, hpp, hp]
    refine ⟨x, hx, e1, e2, ?_⟩
    rw [e2]
    have hsp : strPath p = strPath x.1 := by rw [← e1, strPath_norm]
    obtain ⟨p', u⟩ := x
    cases u with
    | leaf v => exact (leafResult_leaf hC hM hn _ hx v rfl p hsp).1
    | node k f =>
      have : f = .nil := by
        have := ((t.flat_spec true (keysOk_distinct t hk) p' (.node k f)).mp hx).2.1
        cases f with
        | nil => rfl
        | cons => cases this
      subst this
      exact leafResult_node C ck.params k .nil p none
  have hr : restore C o ck part none none = M.mapPath false (fun p => leafResult C ck.params p (entryAt M p) none) [] := by
    simp only [restore, h1, h2, Option.bind_eq_bind, Option.bind_some, hM.truthy, if_true]
    rw [restoreWith_eq C ck.params M hMk (Tree.map some M) none (by simp) (entryAt M) ?_]
    · rfl
    · intro x hx
      obtain ⟨h3, -, h4⟩ := (M.flat_spec false hMd x.1 x.2).mp hx
      obtain ⟨e, he⟩ := h4 rfl
      rw [he] at h3
      refine walk_meta hM.norm (e := e) ?_
      rw [pl_path _ M _ hpl h3]
      exact h3
  obtain ⟨r, hr'⟩ := Option.isSome_iff_exists.mp (mapPath_isSome (fun p => leafResult C ck.params p (entryAt M p) none) M [] (by
    intro x hx
    obtain ⟨h3, -, h4⟩ := (M.flat_spec false hMd x.1 x.2).mp hx
    obtain ⟨e, he⟩ := h4 rfl
    rw [he] at h3
    obtain ⟨y, -, -, -, h5⟩ := hleaf x.1 e h3
    simp [h5]))
  refine ⟨r, by rw [hr, hr'], ?_⟩
  have hat := mapPath_at _ M [] r hr'
  intro p
  rw [expected_plain, expected_at]
  have hkind := hM.kinds p
  cases hp : M.at_ p with
  | none =>
    rw [hp] at hkind
    have h3 : t.plain.at_ p = none := by
      cases h : t.plain.at_ p with
      | none => rfl
      | some u => rw [h] at hkind; cases hkind
    rw [h3, mapPath_at_none _ p M [] r ?_ hr' hp]
    · rfl
    · intro q a u hq hu
      obtain ⟨x, hx, -, -, h5⟩ := hleaf q a hq
      rw [List.nil_append, h5] at hu
      cases hu
      have := ((t.flat_spec true (keysOk_distinct t hk) x.1 x.2).mp hx).2.1
      cases h6 : x.2 with
      | leaf v => rfl
      | node k f =>
        rw [h6] at this
        simpa [Tree.expected, Tree.emptyOrLeaf, expectedF_isEmpty] using this
  | some u =>
    cases u with
    | leaf e =>
      obtain ⟨x, hx, e1, -, h5⟩ := hleaf p e hp
      rw [(hat p).1 e hp, List.nil_append, h5]
      have := ((t.flat_spec true (keysOk_distinct t hk) x.1 x.2).mp hx).2.1
      rw [(plain_at_iff t hk p x.2 this).mpr ⟨x, hx, e1, rfl⟩]
      rfl
    | node k f =>
      obtain ⟨f', h3, -⟩ := (hat p).2 k f hp
      rw [h3]
      have hne : f.isEmpty = false := by
        have : ∀ (q : List Key) (s : Tree P), Tree.Norm s → s.at_ q = some (.node k f) → f ≠ .nil := by
          intro q
          induction q with
          | nil => intro s hs e; cases e; exact hs.1
          | cons k' q ih =>
            intro s hs e
            cases s with
            | leaf => cases e
            | node kd g =>
              simp only [Tree.at_, Option.bind_eq_some_iff] at e
              obtain ⟨c, hc, e⟩ := e
              exact ih c (norm_child hs.2.2 hc) e
        have := this p M hM.norm hp
        cases f with
        | nil => exact absurd rfl this
        | cons => rfl
      rw [hp] at hkind
      simp only [Option.map_some, nodeKind, hne, Bool.false_eq_true, if_false] at hkind
      cases hc : t.plain.at_ p with
      | none => rw [hc] at hkind; cases hkind
      | some u =>
        rw [hc] at hkind
        simp only [Option.map_some, Option.some.injEq] at hkind
        cases u with
        | leaf v => cases hkind
        | node k' g =>
          cases g with
          | nil => simp [nodeKind, Forest.isEmpty] at hkind
          | cons =>
            simp only [nodeKind, Forest.isEmpty, Bool.false_eq_true, if_false, Option.some.injEq] at hkind
            subst hkind
            rfl

/-- The metadata entry for a leaf of a similar item, and what it is restored as. -/
theorem item_leaf {V α D} {C : Codec V D} (hC : Faithful C) {o : Options} {t : Tree V} {ck : Ckpt D} {M : Py} (hM : Meta C o t ck M) (hk : t.KeysOk)
    (hn : (paramNames false t).Nodup) (i : Tree α) (hi : i.KeysOk) (p : List Key) (a : α) (hp : i.at_ p = some (.leaf a))
    (hsim : (i.plain.at_ (p.map normKey)).map nodeKind = (t.plain.at_ (p.map normKey)).map nodeKind) :
    ∃ q u, strPath q = strPath p ∧ t.at_ q = some u ∧ u.emptyOrLeaf = true ∧ (∃ e, M.at_ (p.map normKey) = some (.leaf e)) ∧
      leafResult C ck.params p (entryAt M p) none = some (Tree.expected u) ∧
      (∀ v, u = .leaf v → ∀ ty, isEmptyType ty = false → leafResult C ck.params p (entryAt M p) (some ty) =
        (C.read ty (C.write v)).map fun w => .leaf (some w)) ∧
      ∀ k f, u = .node k f → ∀ ty, leafResult C ck.params p (entryAt M p) ty = some (Tree.expected u) := by
  obtain ⟨x, hx, e1, e2⟩ := similar_leaf hM hk i hi p a hp hsim
  obtain ⟨h1, h2, -⟩ := (t.flat_spec true (keysOk_distinct t hk) x.1 x.2).mp hx
  have hsp : strPath x.1 = strPath p := by rw [← strPath_norm, e1, strPath_norm]
  have e3 : entryAt M p = some (.entry (valueOf C x.2)) := by simp [entryAt, e2]
  refine ⟨x.1, x.2, hsp, h1, h2, ⟨_, e2⟩, ?_⟩
  rw [e3]
  obtain ⟨p', u⟩ := x
  cases u with
  | leaf v =>
    have := leafResult_leaf hC hM hn _ hx v rfl p hsp.symm
    refine ⟨this.1, ?_, by simp⟩
    intro v' hv
    cases hv
    exact this.2
  | node k f =>
    have : f = .nil := by
      cases f with
      | nil => rfl
      | cons => cases h2
    subst this
    refine ⟨leafResult_node C ck.params k .nil p none, by simp, ?_⟩
    intro k' f' _ ty
    exact leafResult_node C ck.params k .nil p ty

theorem restore_item_eq {V D} {C : Codec V D} {o : Options} {t : Tree V} {ck : Ckpt D} {M : Py} (hM : Meta C o t ck M) (hk : t.KeysOk)
    (i : Tree (Option V)) (hi : i.KeysOk) (hp : hasPlaceholder i = false) (args : Option (Tree RArg))
    (hA : ∀ A, args = some A → A.shape = i.shape) :
    (¬ Similar i t → restore C o ck false (some i) args = none) ∧
    (Similar i t → restore C o ck false (some i) args = i.mapPath false (fun p => leafResult C ck.params p (entryAt M p) (argAt args p)) []) := by
  obtain ⟨m, h1, h2⟩ := hM.read
  have hdiff := difference_none_iff hM i hi
  simp only [restore, h1, h2, Option.bind_eq_bind, Option.bind_some, hM.truthy, if_true, C41_serialize i hi, Bool.false_eq_true, if_false, hp]
  constructor
  · intro h
    rw [← hdiff] at h
    rw [if_pos]
    cases hd : difference i.plain M with
    | none => exact absurd hd h
    | some _ => rfl
  · intro h
    rw [hdiff.mpr h]
    simp only [Option.isSome_none, Bool.false_eq_true, if_false]
    refine restoreWith_eq C ck.params i hi (Tree.map some M) args hA (entryAt M) ?_
    intro x hx
    obtain ⟨h3, -, h4⟩ := (i.flat_spec false (keysOk_distinct i hi) x.1 x.2).mp hx
    obtain ⟨e, he⟩ := h4 rfl
    rw [he] at h3
    obtain ⟨y, -, -, h5⟩ := similar_leaf hM hk i hi x.1 e h3 (h _)
    exact walk_meta hM.norm h5

/-- C85 (restoring with an item): restoring succeeds exactly if the item is similar to the saved tree, and then gives the item with the saved
values. -/
theorem C85_restore_item {V D} (C : Codec V D) (hC : Faithful C) (o : Options) (t : Tree V) (ck : Ckpt D) (hk : t.KeysOk)
    (hn : (paramNames false t).Nodup) (hs : Saved C o t ck) (i : Tree (Option V)) (hi : i.KeysOk)
    (hp : ∀ p, i.at_ p ≠ some (.leaf none)) :
    ((restore C o ck false (some i) none).isSome = true ↔ Similar i t) ∧
    ∀ r, restore C o ck false (some i) none = some r → Restored t i r := by
  obtain ⟨M, hM⟩ := saved_meta C o t ck hC hk hs
  have hid := keysOk_distinct i hi
  have hph : hasPlaceholder i = false := by
    simp only [hasPlaceholder, List.any_eq_false]
    intro x hx
    obtain ⟨h3, -, h4⟩ := (i.flat_spec false hid x.1 x.2).mp hx
    obtain ⟨e, he⟩ := h4 rfl
    rw [he] at h3 ⊢
    cases e with
    | none => exact absurd h3 (hp _)
    | some v => simp
  obtain ⟨h1, h2⟩ := restore_item_eq hM hk i hi hph none (by simp)
  have hsome : Similar i t → ((restore C o ck false (some i) none).isSome = true) := by
    intro h
    rw [h2 h]
    refine mapPath_isSome _ i [] ?_
    intro x hx
    obtain ⟨h3, -, h4⟩ := (i.flat_spec false hid x.1 x.2).mp hx
    obtain ⟨e, he⟩ := h4 rfl
    rw [he] at h3
    obtain ⟨q, u, -, -, -, -, h5, -⟩ := item_leaf hC hM hk hn i hi x.1 e h3 (h _)
    simp [argAt, h5]
  have hsim : (restore C o ck false (some i) none).isSome = true → Similar i t := by
    intro h
    by_cases hc : Similar i t
    · exact hc
    · rw [h1 hc] at h; cases h
  refine ⟨⟨hsim, hsome⟩, ?_⟩
  intro r hr
  have hc := hsim (by rw [hr]; rfl)
  rw [h2 hc] at hr
  have hat := mapPath_at _ i [] r hr
  refine ⟨fun p kd f hf => (hat p).2 kd f hf, ?_⟩
  intro p a ha
  obtain ⟨q, u, h3, h4, h5, -, h6, -⟩ := item_leaf hC hM hk hn i hi p a ha (hc _)
  refine ⟨q, u, h3, h4, h5, ?_⟩
  rw [(hat p).1 a ha, List.nil_append]
  exact h6

/-- C85 (restore types): with restore arguments that give a type for some leaves, those leaves are read by the handler of that type from what was
written for the saved value, and the others as saved; restoring fails if such a handler cannot read it. -/
theorem C85_restore_types {V D} (C : Codec V D) (hC : Faithful C) (o : Options) (t : Tree V) (ck : Ckpt D) (hk : t.KeysOk)
    (hn : (paramNames false t).Nodup) (hs : Saved C o t ck) (i : Tree (Option V)) (hi : i.KeysOk)
    (hp : ∀ p, i.at_ p ≠ some (.leaf none)) (A : Tree RArg) (hA : A.shape = i.shape)
    (hty : ∀ p ty, A.at_ p = some (.leaf (some ty)) → isEmptyType ty = false) (r : Tree (Option V))
    (hr : restore C o ck false (some i) (some A) = some r) :
    (∀ p kd f, i.at_ p = some (.node kd f) → ∃ f', r.at_ p = some (.node kd f') ∧ f'.keys = f.keys) ∧
    ∀ p a, i.at_ p = some (.leaf a) → ∃ q u, strPath q = strPath p ∧ t.at_ q = some u ∧ u.emptyOrLeaf = true ∧
      (A.at_ p = some (.leaf none) → r.at_ p = some (Tree.expected u)) ∧
      ∀ ty v, A.at_ p = some (.leaf (some ty)) → u = .leaf v → ∃ w, C.read ty (C.write v) = some w ∧ r.at_ p = some (.leaf (some w)) := by
  obtain ⟨M, hM⟩ := saved_meta C o t ck hC hk hs
  have hid := keysOk_distinct i hi
  have hph : hasPlaceholder i = false := by
    simp only [hasPlaceholder, List.any_eq_false]
    intro x hx
    obtain ⟨h3, -, h4⟩ := (i.flat_spec false hid x.1 x.2).mp hx
    obtain ⟨e, he⟩ := h4 rfl
    rw [he] at h3 ⊢
    cases e with
    | none => exact absurd h3 (hp _)
    | some v => simp
  obtain ⟨h1, h2⟩ := restore_item_eq hM hk i hi hph (some A) (by intro A' e; cases e; exact hA)
  have hc : Similar i t := by
    by_cases hc : Similar i t
    · exact hc
    · rw [h1 hc] at hr; cases hr
  rw [h2 hc] at hr
  have hat := mapPath_at _ i [] r hr
  refine ⟨fun p kd f hf => (hat p).2 kd f hf, ?_⟩
  intro p a ha
  obtain ⟨q, u, h3, h4, h5, -, h6, h7, -⟩ := item_leaf hC hM hk hn i hi p a ha (hc _)
  have h8 := (hat p).1 a ha
  rw [List.nil_append] at h8
  refine ⟨q, u, h3, h4, h5, ?_, ?_⟩
  · intro hA0
    rw [h8]
    simp only [argAt, hA0]
    exact h6
  · intro ty v hA0 hv
    have h9 := h7 v hv ty (hty p ty hA0)
    simp only [argAt, hA0] at h8
    rw [h9] at h8
    have hsome : (r.at_ p).isSome = true := by
      by_cases hb : ((C.read ty (C.write v)).map fun w => (Tree.leaf (some w) : Tree (Option V))) = none
      · exfalso
        have : i.mapPath false (fun p => leafResult C ck.params p (entryAt M p) (argAt (some A) p)) [] = none := by
          refine mapPath_none _ i [] ⟨(p, .leaf a), (i.flat_spec false hid p _).mpr ⟨ha, rfl, fun _ => ⟨a, rfl⟩⟩, ?_⟩
          simp only [List.nil_append, argAt, hA0]
          rw [h9, hb]
        rw [this] at hr
        cases hr
      · rw [h8]
        cases hb' : ((C.read ty (C.write v)).map fun w => (Tree.leaf (some w) : Tree (Option V))) with
        | none => exact absurd hb' hb
        | some _ => rfl
    cases hw : C.read ty (C.write v) with
    | none => rw [h8, hw] at hsome; cases hsome
    | some w => exact ⟨w, rfl, by rw [h8, hw]; rfl⟩

end Verif.PyTree
