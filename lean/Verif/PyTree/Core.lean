import Verif.PyTree.Lemmas

/-!
# Lemmas for saving and restoring trees: reading a saved checkpoint
-/

namespace Verif.PyTree

open Verif Verif.Trees Verif.TreeMetadata

/-! ### Type handlers -/

/-- What a type handler must do: its type string is not that of an empty container, and it reads back what it wrote. -/
def Faithful {V D} (C : Codec V D) : Prop := ∀ v s, C.typestr v = some s → isEmptyType s = false ∧ C.read s (C.write v) = some v

/-- What an empty container is restored as: an empty named tuple or object of a registered class becomes `None`. -/
def stdKind : Kind → Kind
  | .named _ => .none
  | .custom _ => .none
  | k => k

theorem emptyType_kind (k : Kind) : isEmptyType (emptyTypestr k) = true := by cases k <;> rfl

theorem emptyValue_kind {β} (k : Kind) : (emptyValue (emptyTypestr k) : Option (Tree β)) = some (.node (stdKind k) .nil) := by cases k <;> rfl

/-! ### Restore arguments -/

/-- The restore arguments at a path. -/
def argAt (args : Option (Tree RArg)) (p : List Key) : RArg := match args with
  | none => none
  | some A => match A.at_ p with
    | some (.leaf a) => a
    | _ => none

theorem fillArgsF_isEmpty {α} {f : Forest α} {g a : Forest RArg} (h : Forest.fillArgs f g = some a) : a.isEmpty = f.isEmpty := by
  cases f with
  | nil =>
    cases g with
    | nil => simp only [Forest.fillArgs, Option.some.injEq] at h; subst h; rfl
    | cons => simp [Forest.fillArgs] at h
  | cons k t r =>
    cases g with
    | nil => simp [Forest.fillArgs] at h
    | cons k' u s =>
      simp only [Forest.fillArgs] at h
      split at h
      · simp only [Option.bind_eq_bind, Option.bind_eq_some_iff, Option.pure_def, Option.some.injEq] at h
        obtain ⟨_, _, _, _, rfl⟩ := h
        rfl
      · cases h

mutual
theorem fillArgs_some {α} : ∀ (t : Tree α) (A : Tree RArg), A.shape = t.shape → ∃ a, Tree.fillArgs t A = some a ∧ (t.KeysOk → a.KeysOk) ∧
    a.flat true = (A.flat true).map fun y => (y.1, .leaf (argOf y.2))
  | .leaf _, .leaf a, _ => ⟨_, rfl, fun _ => trivial, rfl⟩
  | .leaf _, .node _ _, h => by cases h
  | .node _ _, .leaf _, h => by cases h
  | .node k .nil, .node k' g, h => by
    simp only [Tree.shape, Tree.node.injEq] at h
    obtain ⟨rfl, h⟩ := h
    cases g with
    | nil => exact ⟨_, rfl, fun _ => trivial, rfl⟩
    | cons => cases h
  | .node k (.cons key t r), .node k' g, h => by
    simp only [Tree.shape, Tree.node.injEq] at h
    obtain ⟨rfl, h⟩ := h
    obtain ⟨a, h1, h2, h3, h4⟩ := fillArgsF_some (.cons key t r) g h
    have he := fillArgsF_isEmpty h1
    simp only [Forest.isEmpty] at he
    refine ⟨.node k' a, ?_, ?_, ?_⟩
    · simp [Tree.fillArgs, Forest.isEmpty, h1]
    · intro hk
      refine ⟨?_, h2 hk.2⟩
      rw [h3]
      exact hk.1
    · cases g with
      | nil => cases h
      | cons k2 u s => simpa [Tree.flat, he, Forest.isEmpty] using h4
theorem fillArgsF_some {α} : ∀ (f : Forest α) (g : Forest RArg), g.shape = f.shape → ∃ a, Forest.fillArgs f g = some a ∧ (f.KeysOk → a.KeysOk) ∧
    a.keys = f.keys ∧ a.flat true = (g.flat true).map fun y => (y.1, .leaf (argOf y.2))
  | .nil, .nil, _ => ⟨_, rfl, fun _ => trivial, rfl, rfl⟩
  | .nil, .cons _ _ _, h => by cases h
  | .cons _ _ _, .nil, h => by cases h
  | .cons k t r, .cons k' u s, h => by
    simp only [Forest.shape, Forest.cons.injEq] at h
    obtain ⟨rfl, hu, hs⟩ := h
    obtain ⟨a, h1, h2, h3⟩ := fillArgs_some t u hu
    obtain ⟨b, h4, h5, h6, h7⟩ := fillArgsF_some r s hs
    refine ⟨.cons k' a b, by simp [Forest.fillArgs, h1, h4], fun hk => ⟨h2 hk.1, h5 hk.2⟩, by simp [Forest.keys, h6], ?_⟩
    simp [Forest.flat, h3, h7, Function.comp_def]
end

/-- The end of restoring: in the structure of the item, every leaf is the result for its metadata. -/
theorem restoreWith_eq {α V D} (C : Codec V D) (params : List (Name × D)) (item : Tree α) (hk : item.KeysOk) (M : Tree (Option P))
    (args : Option (Tree RArg)) (hA : ∀ A, args = some A → A.shape = item.shape) (m : List Key → Option P)
    (hm : ∀ x ∈ item.flat false, walk M x.1 = some (.leaf (m x.1))) :
    restoreWith C params item M args = item.mapPath false (fun p => leafResult C params p (m p) (argAt args p)) [] := by
  have hd := keysOk_distinct item hk
  have hA' : ∃ A, args.getD (item.relabel (fun _ => none) []) = A ∧ A.shape = item.shape ∧
      ∀ x ∈ item.flat false, A.at_ x.1 = some (.leaf (argAt args x.1)) := by
    cases args with
    | none =>
      refine ⟨_, rfl, relabel_shape _ _ _, ?_⟩
      intro x hx
      obtain ⟨hx', a, ha⟩ := mem_flat_leaf.mp hx
      have := relabel_at (fun _ => (none : RArg)) item hd x hx'
      rw [ha] at this
      exact this
    | some A =>
      refine ⟨A, rfl, hA A rfl, ?_⟩
      intro x hx
      obtain ⟨h1, -, h2⟩ := (item.flat_spec false hd x.1 x.2).mp hx
      obtain ⟨a, ha⟩ := h2 rfl
      rw [ha] at h1
      obtain ⟨b, hb⟩ := at_leaf_shape (hA A rfl).symm h1
      simp only [argAt, hb]
  obtain ⟨A, hA1, hA2, hA3⟩ := hA'
  obtain ⟨a, h1, h2, h3⟩ := fillArgs_some item A hA2
  have hAd : A.Distinct := by rw [← shape_distinct, hA2, shape_distinct]; exact hd
  have hall : allArgs item args = some a := by simp only [allArgs, hA1, h1]
  have hw : ∀ x ∈ item.flat false, walk a.plain x.1 = some (.leaf (argAt args x.1)) := by
    intro x hx
    have h4 := (A.flat_spec true hAd x.1 (.leaf (argAt args x.1))).mpr ⟨hA3 x hx, rfl, by simp⟩
    have h5 : (x.1, Tree.leaf (argAt args x.1)) ∈ a.flat true := by
      rw [h3, List.mem_map]
      exact ⟨_, h4, rfl⟩
    exact walk_plain true a (h2 hk) _ h5
  have hd1 : deserialize false M item = some (item.relabel m []) := mapPath_relabel _ _ item [] (by
    intro x hx
    simpa using hm x hx)
  have hd2 : deserialize false a.plain item = some (item.relabel (argAt args) []) := mapPath_relabel _ _ item [] (by
    intro x hx
    simpa using hw x hx)
  simp only [restoreWith, hall, Option.bind_eq_bind, Option.bind_some, C41_serialize a (h2 hk), hd1, hd2]
  exact maybeDeserialize_eq C params item hd m (argAt args)

/-! ### The metadata of a saved tree -/

/-- What the saved metadata and parameters are. -/
structure Meta {V D} (C : Codec V D) (o : Options) (t : Tree V) (ck : Ckpt D) (M : Py) : Prop where
  read : ∃ m, TreeMeta.fromJson o.classes false ck.metadata = some m ∧ m.asNested = some M
  norm : Tree.Norm M
  truthy : Py.truthy M = true
  leaves : ∀ q e, M.at_ q = some (.leaf e) ↔ ∃ x ∈ t.flat true, x.1.map normKey = q ∧ e = .entry (valueOf C x.2)
  kinds : ∀ q, (M.at_ q).map nodeKind = (t.plain.at_ q).map nodeKind
  params : (paramNames false t).Nodup → ∀ x ∈ t.flat true, ∀ v, x.2 = .leaf v → Assoc.get ck.params (paramName x.1) = some (C.write v)
  typed : ∀ x ∈ t.flat true, ∀ v, x.2 = .leaf v → (C.typestr v).isSome = true

theorem nodeKind_sort {α} : ∀ t : Tree α, nodeKind (sortTree t) = nodeKind t
  | .leaf _ => rfl
  | .node k f => by
    cases f with
    | nil => rfl
    | cons k' t r =>
      have : sortForest (.cons k' t r) ≠ .nil := sortForest_ne (by simp)
      simp only [sortTree, nodeKind, Forest.isEmpty]
      cases h : sortForest (.cons k' t r) with
      | nil => exact absurd h this
      | cons => rfl

theorem nodeKind_shape {α} (t : Tree α) : nodeKind t.shape = nodeKind t := by
  cases t with
  | leaf => rfl
  | node k f => cases f <;> rfl

theorem nodeKind_clip {α} (ph : α → Bool) (t : Tree α) : nodeKind (Tree.clip ph t) = nodeKind t := by
  cases t with
  | leaf => rfl
  | node k f => cases f <;> rfl

theorem at_kinds_shape {α β} {s : Tree α} {t : Tree β} (h : s.shape = t.shape) (q : List Key) :
    (s.at_ q).map nodeKind = (t.at_ q).map nodeKind := by
  have h1 := at_shape q s
  rw [h, at_shape] at h1
  have h2 := congrArg (Option.map nodeKind) h1
  simp only [Option.map_map, Function.comp_def, nodeKind_shape] at h2
  exact h2.symm

theorem saved_meta {V D} (C : Codec V D) (o : Options) (t : Tree V) (ck : Ckpt D) (hC : Faithful C) (hk : t.KeysOk) (hs : Saved C o t ck) :
    ∃ M, Meta C o t ck M := by
  obtain ⟨j, ws, ws', hsave, hperm, rfl⟩ := hs
  simp only [save] at hsave
  split at hsave
  · cases hsave
  · simp only [Option.bind_eq_bind, Option.bind_eq_some_iff, Option.pure_def, Option.some.injEq, Prod.mk.injEq] at hsave
    obtain ⟨ws0, hw, m, hm, j0, hj, rfl, rfl⟩ := hsave
    have htyped := (writes_eq C _ _ hw).2
    obtain ⟨j', m', vt, h1, h2, h3, h4, h5, h6⟩ := nested_sorted_from_json o.classes o.printable (Tree.infos C t) _ o.ocdbt o.zarr3 o.custom o.store m
      (infos_keysOk C t hk) (Nat.le_refl _) hm (by
        intro x hx i hi
        rw [infos_flat, List.mem_map] at hx
        obtain ⟨y, hy, rfl⟩ := hx
        cases hi
        obtain ⟨p, y⟩ := y
        cases y with
        | leaf v =>
          have := htyped _ hy v rfl
          obtain ⟨s, hs⟩ := Option.isSome_iff_exists.mp this
          have h0 := (hC v s hs).1
          simp only [typeOf, hs, Option.getD_some, ne_eq, Option.some.injEq]
          rintro rfl
          simp [isEmptyType] at h0
        | node k f => cases k <;> simp [typeOf, emptyTypestr, tList, tTuple, tDict, tNone, tNamedTuple])
    rw [hj] at h1
    cases h1
    have hnorm := sortTree_norm _ (plain_norm vt h4 h5)
    have hvflat : vt.flat true = (t.flat true).map fun x => (x.1, .leaf (.entry (valueOf C x.2))) := by
      have := (mapLeaf_flat _ TreeMetadata.leafValue (by
        intro a b hab
        simp only [Option.map_eq_some_iff] at hab
        obtain ⟨v, hv, rfl⟩ := hab
        simp [TreeMetadata.leafValue, hv]) (Tree.infos C t) vt h3).1
      rw [this, infos_flat, List.map_map]
      apply List.map_congr_left
      intro x _
      simp [TreeMetadata.leafValue, Info.value, valueOf]
    have hleaves : ∀ q e, (sortTree vt.plain).at_ q = some (.leaf e) ↔ ∃ x ∈ t.flat true, x.1.map normKey = q ∧ e = .entry (valueOf C x.2) := by
      intro q e
      rw [sortTree_at q _ (plain_norm vt h4 h5)]
      have h7 := plain_at_iff vt h4 q (.leaf e) rfl
      have h8 : (vt.plain.at_ q).map sortTree = some (.leaf e) ↔ vt.plain.at_ q = some (.leaf e) := by
        cases vt.plain.at_ q with
        | none => simp
        | some u => cases u <;> simp [sortTree]
      rw [h8, h7, hvflat]
      constructor
      · rintro ⟨x, hx, e1, e2⟩
        obtain ⟨y, hy, rfl⟩ := List.mem_map.mp hx
        cases e2
        exact ⟨y, hy, e1, rfl⟩
      · rintro ⟨y, hy, e1, rfl⟩
        exact ⟨_, List.mem_map.mpr ⟨y, hy, rfl⟩, e1, rfl⟩
    refine ⟨sortTree vt.plain, ⟨m', h2, h6⟩, hnorm, ?_, hleaves, ?_, ?_, htyped⟩
    · cases hM : sortTree vt.plain with
      | leaf e =>
        obtain ⟨x, -, -, rfl⟩ := (hleaves [] e).mp (by rw [hM]; rfl)
        rfl
      | node k f =>
        rw [hM] at hnorm
        have hne : f.isEmpty = false := by
          cases f with
          | nil => exact absurd rfl hnorm.1
          | cons => rfl
        rcases hnorm.2.1 with ⟨rfl, -⟩ | ⟨rfl, -⟩ <;> simp [Py.truthy, hne]
    · intro q
      rw [sortTree_at q _ (plain_norm vt h4 h5), Option.map_map]
      have e1 : (nodeKind ∘ sortTree : Py → Option Kind) = nodeKind := funext nodeKind_sort
      rw [e1]
      have e2 : vt.plain.shape = (Tree.clip (fun _ => false) t.plain).shape := by
        rw [clip_plain, plain_shape, plain_shape, mapLeaf_shape _ _ _ h3, infos_shape]
      rw [at_kinds_shape e2 q, clip_at, Option.map_map]
      have e3 : (nodeKind ∘ Tree.clip (fun _ : V => false)) = nodeKind := funext (nodeKind_clip _)
      rw [e3]
    · intro hn x hx v hv
      exact params_get C t hn _ _ hw hperm x hx v hv

/-! ### The result for a saved leaf -/

theorem paramName_congr {p q : List Key} (h : strPath p = strPath q) : paramName p = paramName q := by simp only [paramName, h]

/-- The result for a saved value, with the restore type given by the arguments. -/
theorem leafResult_leaf {V D} {C : Codec V D} {o : Options} {t : Tree V} {ck : Ckpt D} {M : Py} (hC : Faithful C) (hM : Meta C o t ck M)
    (hn : (paramNames false t).Nodup) (x : List Key × Tree V) (hx : x ∈ t.flat true) (v : V) (hv : x.2 = .leaf v) (p : List Key)
    (hp : strPath p = strPath x.1) :
    leafResult C ck.params p (some (.entry (valueOf C x.2))) none = some (.leaf (some v)) ∧
      ∀ ty, isEmptyType ty = false → leafResult C ck.params p (some (.entry (valueOf C x.2))) (some ty) =
        (C.read ty (C.write v)).map fun w => .leaf (some w) := by
  have h1 := hM.params hn x hx v hv
  rw [← paramName_congr hp] at h1
  obtain ⟨s, hs⟩ := Option.isSome_iff_exists.mp (hM.typed x hx v hv)
  obtain ⟨h2, h3⟩ := hC v s hs
  have ht : typeOf C x.2 = s := by rw [hv]; simp [typeOf, hs]
  constructor
  · simp [leafResult, readLeaf, valueOf, ht, h2, h1, h3]
  · intro ty hty
    simp only [leafResult, readLeaf, valueOf, ht, h2, h1, hty, Option.getD_some, Option.bind_eq_bind, Option.bind_some, Bool.false_eq_true, if_false]
    cases C.read ty (C.write v) <;> rfl

/-- The result for a saved empty container. -/
theorem leafResult_node {V D} (C : Codec V D) (params : List (Name × D)) (k : Kind) (f : Forest V) (p : List Key) (r : RArg) :
    leafResult C params p (some (.entry (valueOf C (.node k f)))) r = some (.node (stdKind k) .nil) := by
  simp [leafResult, readLeaf, valueOf, typeOf, emptyType_kind, fillIn, emptyValue_kind]

/-! ### Trees of the metadata -/

theorem mapF_keys {α β} (g : α → β) : ∀ f : Forest α, (Forest.map g f).keys = f.keys
  | .nil => rfl
  | .cons k t r => by simp [Forest.map, Forest.keys, mapF_keys g r]

theorem mapF_get {α β} (g : α → β) (k : Key) : ∀ f : Forest α, (Forest.map g f).get k = (f.get k).map (Tree.map g)
  | .nil => rfl
  | .cons k' t r => by
    simp only [Forest.map, Forest.get]
    split
    · rfl
    · exact mapF_get g k r

theorem map_at {α β} (g : α → β) : ∀ (p : List Key) (t : Tree α), (Tree.map g t).at_ p = (t.at_ p).map (Tree.map g)
  | [], _ => rfl
  | k :: p, .leaf _ => rfl
  | k :: p, .node kd f => by
    simp only [Tree.map, Tree.at_, mapF_get]
    cases f.get k with
    | none => rfl
    | some c => exact map_at g p c

mutual
theorem map_pl {α β} (g : α → β) : ∀ t : Tree α, Tree.Pl t → Tree.Pl (Tree.map g t)
  | .leaf _, _ => trivial
  | .node k f, h => by
    refine ⟨?_, mapF_pl g f h.2⟩
    rw [mapF_keys]
    rcases h.1 with rfl | h | h
    · exact .inl rfl
    · exact .inr (.inl h)
    · exact .inr (.inr h)
theorem mapF_pl {α β} (g : α → β) : ∀ f : Forest α, Forest.Pl f → Forest.Pl (Forest.map g f)
  | .nil, _ => trivial
  | .cons _ t r, h => ⟨map_pl g t h.1, mapF_pl g r h.2⟩
end

/-- The paths of a plain tree are those that the metadata keeps. -/
theorem pl_path {α} : ∀ (p : List Key) (t v : Tree α), Tree.Pl t → t.at_ p = some v → p.map normKey = p
  | [], _, _, _, _ => rfl
  | k :: p, .leaf _, _, _, h => by cases h
  | k :: p, .node kd f, v, hp, h => by
    simp only [Tree.at_, Option.bind_eq_some_iff] at h
    obtain ⟨c, hc, h⟩ := h
    have ih := pl_path p c v (pl_child hp.2 hc) h
    have hmem := Forest.get_mem hc
    rw [List.map_cons, ih]
    congr 1
    rcases hp.1 with rfl | ⟨rfl, h1, -⟩ | ⟨rfl, h1⟩
    · simp [Forest.get] at hc
    · obtain ⟨s, rfl⟩ := h1 _ hmem
      rfl
    · obtain ⟨i, -, -, rfl⟩ := seqFrom_mem 0 _ h1 _ hmem
      rfl

end Verif.PyTree
