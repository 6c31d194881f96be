import Verif.PyTree.TransformRestoreProps
import Verif.PyTree.SaveProps

/-!
# Property C86: where restoring with transforms fails, and cases
-/

namespace Verif.PyTree

open Verif Verif.Trees Verif.TreeMetadata

/-- C86 (finding): a value of the checkpoint is read once, so two leaves of the item that come from the same value get the same result, even if
their restore arguments differ: one of them is not what its arguments ask for. -/
theorem C86_shared_value_fails {V D} (C : Codec V D) (hC : Faithful C) (o : Options) (t : Tree V) (ck : Ckpt D) (hk : t.KeysOk)
    (hn : (paramNames false t).Nodup) (ht : SavedApart t) (hs : Saved C o t ck) (R : Request V) (hR : R.Ok (pathsOf t)) (hty : R.Typed)
    (hm : ∀ x ∈ R.list, x.2.multiFn = none ∧ x.2.valueFn = none) (p₁ p₂ q : List Key) (v₁ v₂ x : V)
    (h₁ : R.item.at_ p₁ = some (.leaf v₁)) (h₂ : R.item.at_ p₂ = some (.leaf v₂)) (hq : t.at_ q = some (.leaf x))
    (s₁ : R.Source p₁ (slashName q)) (s₂ : R.Source p₂ (slashName q)) (a₁ a₂ : RArg) (w₁ w₂ : V) (hr₁ : ReadsAs C x a₁ w₁) (hr₂ : ReadsAs C x a₂ w₂)
    (hne : w₁ ≠ w₂) (r : Tree (Got V)) (h : restoreT C o ck R.fm R.dto (some R.item) (some R.args) R.rules = some r) :
    ¬ (r.at_ p₁ = some (.leaf (.value w₁)) ∧ r.at_ p₂ = some (.leaf (.value w₂))) := by
  obtain ⟨T, hT, hr⟩ := C86_restore C hC o t ck hk hn ht hs R hR hty r h
  obtain ⟨g, hg, -⟩ := hT.values q x hq
  have hx : (q, Tree.leaf x) ∈ t.flat true := (t.flat_spec true (keysOk_distinct t hk) q _).mpr ⟨hq, rfl, by simp⟩
  have hold : ∀ w, Holds T (slashName q) w → w = .leaf g := by
    rintro w ⟨q', g', k1, k2, rfl⟩
    obtain ⟨y, hy, e⟩ := hT.only q' g' k1
    have : y.1 = q := ht y hy _ hx (by rw [← k2, ← e, slash_norm])
    rw [← e, this, hg] at k1
    cases k1
    rfl
  have key : ∀ p v, R.item.at_ p = some (.leaf v) → R.Source p (slashName q) → r.at_ p = some (.leaf g) := by
    intro p v hp hsrc
    obtain ⟨w, h3, h4⟩ := (hr p).1 v hp
    have : w = .leaf g := by
      rcases hsrc with ⟨pre, y, post, expand, k1, k2, k3, k4, k5⟩ | ⟨k1, k2, k3⟩
      · rcases h4 with ⟨pre', y', post', expand', j1, j2, j3, j4, j5⟩ | ⟨j1, -⟩
        · have hyy : y = y' ∧ expand = expand' := by
            rw [k1] at j1
            rcases List.append_eq_append_iff.mp j1 with ⟨l, e1, e2⟩ | ⟨l, e1, e2⟩
            · cases l with
              | nil =>
                simp only [List.nil_append, List.cons.injEq] at e2
                obtain ⟨rfl, -⟩ := e2
                rw [k2] at j2
                exact ⟨rfl, Option.some.inj j2⟩
              | cons z l =>
                simp only [List.cons_append, List.cons.injEq] at e2
                exact absurd (k5 y' (by rw [e2.2]; simp) (by rw [j2]; simp)) j3
            · cases l with
              | nil =>
                simp only [List.nil_append, List.cons.injEq] at e2
                obtain ⟨rfl, -⟩ := e2
                rw [k2] at j2
                exact ⟨rfl, Option.some.inj j2⟩
              | cons z l =>
                simp only [List.cons_append, List.cons.injEq] at e2
                exact absurd (j5 y (by rw [e2.2]; simp) (by rw [k2]; simp)) k3
          obtain ⟨rfl, rfl⟩ := hyy
          have hy : y ∈ R.list := by rw [k1]; simp
          rcases j4 with ⟨i1, i2⟩ | ⟨-, m, a, i1, -⟩ | ⟨i1, u, i2, i3⟩
          · rw [i1, if_pos rfl] at k4
            rw [← k4] at i2
            exact hold w i2
          · rw [(hm y hy).1] at i1; cases i1
          · rw [i1.2] at k4
            simp only [Bool.false_eq_true, if_false] at k4
            rw [← k4] at i2
            rw [(hm y hy).2] at i3
            rw [i3]
            exact hold u i2
        · exact absurd (j1 y (by rw [k1]; simp) (by rw [k2]; simp)) k3
      · have hno : ¬ ∃ y ∈ R.list, R.fm y.1 (slashName p) ≠ none := fun ⟨y, hy, e⟩ => e (k1 y hy)
        rcases h4 with ⟨pre', y', post', expand', j1, j2, -⟩ | ⟨-, -, j3⟩
        · rw [k1 y' (by rw [j1]; simp)] at j2; cases j2
        · rcases j3 hno with ⟨-, i2⟩ | ⟨-, i2⟩
          · rw [← k3] at i2
            exact hold w i2
          · exact absurd ⟨k2, _, _, g, hg, by rw [slash_norm, k3], rfl⟩ i2
    rw [h3, this]
  rintro ⟨e₁, e₂⟩
  rw [key p₁ v₁ h₁ s₁] at e₁
  rw [key p₂ v₂ h₂ s₂] at e₂
  cases e₁
  cases e₂
  exact hne rfl

/-! ### Running a request that is not in order -/

theorem run {V D} {C : Codec V D} {o : Options} {t : Tree V} {ck : Ckpt D} (hC : Faithful C) (hk : t.KeysOk) (ht : SavedApart t) (hs : Saved C o t ck)
    (R : Request V) (hi : R.item.Distinct) (hin : NamesApart R.item) (hr : R.rules.Distinct) (hrn : NamesApart R.rules)
    (hne : ∀ kd, R.item = .node kd .nil → ∃ n, kd = .custom n)
    (hplan : ∀ q ∈ pathsOf t, R.plan q = some none)
    (hfine : ∀ p v, R.item.at_ p = some (.leaf v) → ∀ x ∈ R.list, ∀ expand, R.fm x.1 (slashName p) = some expand →
      x.2.Single ∧ ∃ q ∈ pathsOf t, slashName q = x.2.originalKey.elim (slashName p) expand) :
    ∃ T r, restoreT C o ck R.fm R.dto (some R.item) (some R.args) R.rules = some r ∧
      (∀ n v, Holds T n v → ∃ e, v = .leaf (.entry e)) ∧ (∀ q ∈ pathsOf t, ∃ v, Holds T (slashName q) v) ∧
      ∀ p v, R.item.at_ p = some (.leaf v) → ∃ w, r.at_ p = some w ∧
        Trees.Gives R.fm (Holds T) T R.dto (rulesOf R.wrapped) (slashName p) (.leaf (.value v)) w := by
  obtain ⟨M, hM⟩ := saved_meta C o t ck hC hk hs
  have hMd := meta_distinct hM
  have hload : ∀ q e, M.at_ q = some (.leaf e) → R.load C ck.params q (.leaf e) = some (.leaf (.entry e)) := by
    intro q e hq
    obtain ⟨y, hy, rfl, rfl⟩ := (hM.leaves q e).mp hq
    rw [load_leaf, plan_norm, hplan y.1 (mem_paths hy)]
  have htree : (R.tree C ck.params M).isSome = true := by
    apply tree_isSome C ck.params R hMd
    rintro ⟨q, e⟩ hx
    obtain ⟨h3, h4, -⟩ := (M.flat_spec true hMd q e).mp hx
    rcases emptyOrLeaf_cases h4 with ⟨e, rfl⟩ | ⟨kd, rfl⟩
    · rw [hload q e h3]; rfl
    · exfalso
      have h1 := hM.truthy
      have h2 := hM.kinds q
      rw [h3] at h2
      simp only [Option.map_some, nodeKind, Forest.isEmpty, if_true] at h2
      cases hc : t.plain.at_ q with
      | none => rw [hc] at h2; cases h2
      | some u =>
        rw [hc] at h2
        have hu : u.emptyOrLeaf = true := by
          cases u with
          | leaf => rfl
          | node k f => cases f with
            | nil => rfl
            | cons => simp [nodeKind, Forest.isEmpty] at h2
        obtain ⟨x, hx', e1, -⟩ := (plain_at_iff t hk q u hu).mp hc
        have := (hM.leaves q _).mpr ⟨x, hx', e1, rfl⟩
        rw [h3] at this
        cases this
  obtain ⟨T, hT⟩ := Option.isSome_iff_exists.mp htree
  obtain ⟨hsh, hTl⟩ := tree_some C ck.params R hMd hT
  have hTd : T.Distinct := by rw [← shape_distinct, hsh, shape_distinct]; exact hMd
  have hTn : NamesApart T := namesApart_shape hsh (meta_apart hM ht)
  have hent : ∀ n v, Holds T n v → ∃ e, v = .leaf (.entry e) := by
    rintro n v ⟨q, g, h1, -, rfl⟩
    obtain ⟨e, he⟩ := leaf_of_shape hsh.symm h1
    obtain ⟨g', h2, h3⟩ := hTl q e he
    rw [hload q e he] at h2
    rw [h1] at h3
    cases h3
    cases h2
    exact ⟨e, rfl⟩
  have hex : ∀ q ∈ pathsOf t, ∃ v, Holds T (slashName q) v := by
    intro q hq
    obtain ⟨y, hy, rfl⟩ := List.mem_map.mp hq
    obtain ⟨g, -, h3⟩ := hTl _ _ ((hM.leaves (y.1.map normKey) _).mpr ⟨y, hy, rfl, rfl⟩)
    exact ⟨_, _, g, h3, slash_norm _, rfl⟩
  have w1 : R.wrapped.Distinct := map_distinct _ _ hr
  have w2 : NamesApart R.wrapped := namesApart_shape (map_shape _ _) hrn
  have i1 : (Tree.map Got.value R.item).Distinct := map_distinct _ _ hi
  have i2 : NamesApart (Tree.map Got.value R.item) := namesApart_shape (map_shape _ _) hin
  have i3 : ∀ kd, Tree.map Got.value R.item = .node kd .nil → ∃ n, kd = .custom n := fun kd h => hne kd (map_empty _ h)
  have hsome := (C47_succeeds R.fm R.dto T (Tree.map Got.value R.item) R.wrapped hTd hTn w1 w2 i1 i2 i3).mpr (by
    intro p a hp x hx expand he
    obtain ⟨v, hv, -⟩ := map_leaf _ hp
    rw [rulesOf_map] at hx
    obtain ⟨y, hy, rfl⟩ := List.mem_map.mp hx
    obtain ⟨⟨h1, h2⟩, q, hq, h3⟩ := hfine p v hv y hy expand he
    simp only [Rule.Fine, RRule.wrap, h1, h2, Rule.source, Bool.false_eq_true, if_false, Option.map_none, Option.isSome_none]
    obtain ⟨u, hu⟩ := hex q hq
    rw [h3] at hu
    cases e : y.2.originalKey <;> rw [e] at hu <;> exact ⟨u, hu⟩)
  obtain ⟨r, h2⟩ := Option.isSome_iff_exists.mp hsome
  have h0 := restore_eq hM R
  simp only [Request.restore, hT, Option.bind_some] at h0
  refine ⟨T, r, by rw [h0]; exact h2, hent, hex, ?_⟩
  intro p v hv
  obtain ⟨h3, -⟩ := C47_values R.fm R.dto T (Tree.map Got.value R.item) r R.wrapped hTd hTn w1 w2 i1 i2 i3 h2 p
  exact h3 (.value v) (by rw [map_at, hv]; rfl)

/-- C86 (finding): a saved value is found by its joined name, but only loaded if its path is the same: with `{'a/b': ...}` as the item and
`{'a': {'b': ...}}` saved, the result has a metadata object instead of the saved value. -/
theorem C86_slash_fails {V D} (C : Codec V D) (hC : Faithful C) (o : Options) (t : Tree V) (ck : Ckpt D) (hk : t.KeysOk) (ht : SavedApart t)
    (hs : Saved C o t ck) (item : Tree V) (args : Tree RArg) (fm : FullMatch) (hi : item.Distinct) (hin : NamesApart item)
    (hne : ∀ kd, item = .node kd .nil → ∃ n, kd = .custom n) (hap : ∀ p v, item.at_ p = some v → ∀ q ∈ pathsOf t, strPath p ≠ strPath q)
    (p q : List Key) (v : V) (hp : item.at_ p = some (.leaf v)) (hq : q ∈ pathsOf t) (e : slashName p = slashName q) :
    ∃ r, restoreT C o ck fm true (some item) (some args) emptyDict = some r ∧ ∃ m, r.at_ p = some (.leaf (.entry m)) := by
  have hnd : (emptyDict : Tree (RRule V)).Distinct := by simp [emptyDict, Tree.Distinct, Forest.Distinct, Forest.keys]
  have hnn : NamesApart (emptyDict : Tree (RRule V)) := by
    intro p q a b h
    cases p with
    | nil => simp [Tree.at_, emptyDict] at h
    | cons k p => simp [Tree.at_, emptyDict, Forest.get] at h
  obtain ⟨T, r, h1, h2, h3, h4⟩ := run hC hk ht hs ⟨fm, true, item, args, emptyDict⟩ hi hin hnd hnn hne (by
    intro q hq
    have hg : Assoc.get (toFlat true item) (strPath q) = none := by
      cases hg : Assoc.get (toFlat true item) (strPath q) with
      | none => rfl
      | some w =>
        obtain ⟨p, e, hp, -⟩ := (get_toFlatK hi _ _).mp hg
        exact absurd e (hap p w hp q hq)
    simp only [Request.plan, plan]
    have : toFlat false (emptyDict : Tree (RRule V)) = [] := rfl
    rw [this]
    simp [findArgs, truthyArgs, hg]) (by
    intro p v _ x hx
    have : (Request.list ⟨fm, true, item, args, emptyDict⟩) = [] := rfl
    rw [this] at hx
    cases hx)
  refine ⟨r, h1, ?_⟩
  obtain ⟨w, h5, h6⟩ := h4 p v hp
  have hru : rulesOf (Request.wrapped ⟨fm, true, item, args, emptyDict⟩) = [] := rfl
  rw [hru] at h6
  rcases h6 with ⟨pre, x, post, expand, g1, -⟩ | ⟨-, -, g3⟩
  · simp at g1
  · rcases g3 (by simp) with ⟨-, k2⟩ | ⟨-, k2⟩
    · obtain ⟨m, rfl⟩ := h2 _ _ k2
      exact ⟨m, h5⟩
    · obtain ⟨u, hu⟩ := h3 q hq
      exact absurd ⟨rfl, u, by rw [e]; exact hu⟩ k2

/-- C86 (finding): if the first transform has a function of several values without declared inputs, restoring any checkpoint that holds
something fails, even if the transform matches no leaf of the item. -/
theorem C86_undeclared_inputs_fails {V D} (C : Codec V D) (hC : Faithful C) (o : Options) (t : Tree V) (ck : Ckpt D) (hk : t.KeysOk)
    (hs : Saved C o t ck) (R : Request V) (hr : R.rules.Distinct) (hne : t.flat true ≠ []) (x : Name × RRule V) (post : List (Name × RRule V))
    (hl : R.list = x :: post) (hm : x.2.multiFn ≠ none) (hi : x.2.isRestore = false ∨ x.2.inputs = none) :
    restoreT C o ck R.fm R.dto (some R.item) (some R.args) R.rules = none := by
  obtain ⟨M, hM⟩ := saved_meta C o t ck hC hk hs
  have hrf := rules_flat R hr
  rw [hl] at hrf
  cases hfl : toFlat false R.rules with
  | nil => rw [hfl] at hrf; simp at hrf
  | cons y l =>
    rw [hfl] at hrf
    simp only [List.map_cons, List.cons.injEq, Prod.mk.injEq] at hrf
    have hplan : ∀ q, R.plan q = none := by
      intro q
      obtain ⟨n, u⟩ := y
      obtain ⟨⟨-, rfl⟩, -⟩ := hrf
      simp only [Request.plan, plan, hfl]
      rw [findArgs_multi hm hi]
    have h0 := restore_eq hM R
    simp only [Request.restore] at h0
    rw [h0]
    cases hT : R.tree C ck.params M with
    | none => rfl
    | some T =>
      exfalso
      obtain ⟨z, zs, hz⟩ := List.exists_cons_of_ne_nil hne
      have hzm : z ∈ t.flat true := by rw [hz]; simp
      obtain ⟨g, h1, -⟩ := (tree_some C ck.params R (meta_distinct hM) hT).2 _ _ ((hM.leaves (z.1.map normKey) _).mpr ⟨z, hzm, rfl, rfl⟩)
      rw [load_leaf, hplan] at h1
      cases h1

/-! ### Examples -/

/-- Patterns without special characters. -/
def exactMatch : FullMatch := fun pattern name => if pattern = name then some id else none

/-- `{'b': {'c': 5}, 'f': 2, 'u': 9}`. -/
def exSavedTree : Tree Nat := dictNode [(['b'], dictNode [(['c'], .leaf 5)]), (['f'], .leaf 2), (['u'], .leaf 9)]

/-- The item `{'a': 0, 'f': 0, 'g': 7}` with the transform `{'a': Transform(original_key='b/c')}`. -/
def exRequest : Request Nat :=
  ⟨exactMatch, true, dictNode [(['a'], .leaf 0), (['f'], .leaf 0), (['g'], .leaf 7)],
    dictNode [(['a'], .leaf none), (['f'], .leaf none), (['g'], .leaf none)], dictNode [(['a'], .leaf { originalKey := some ['b', '/', 'c'] })]⟩

theorem exSavedTree_keys : exSavedTree.KeysOk := by
  simp only [exSavedTree, dictNode, Forest.ofList, List.map, Tree.KeysOk, Forest.KeysOk, Forest.keys, and_true, true_and]
  exact ⟨.inl (by decide), .inl (by decide)⟩

theorem exSavedTree_flat : exSavedTree.flat true =
    [([.dict (.str ['b']), .dict (.str ['c'])], .leaf 5), ([.dict (.str ['f'])], .leaf 2), ([.dict (.str ['u'])], .leaf 9)] := rfl

theorem leaf_mem {α} {t : Tree α} (h : t.Distinct) {p : List Key} {a : α} (hp : t.at_ p = some (.leaf a)) : (p, Tree.leaf a) ∈ t.flat true :=
  (t.flat_spec true h p _).mpr ⟨hp, rfl, by simp⟩

/-- Names of a tree differ if the joined names of its leaves do. -/
theorem namesApart_of {α} {t : Tree α} (h : t.Distinct) (hn : ((t.flat true).map fun x => slashName x.1).Nodup) : NamesApart t := by
  intro p q a b hp hq e
  have h1 := leaf_mem h hp
  have h2 := leaf_mem h hq
  have hn' : (((t.flat true).map fun x => (slashName x.1, x.1)).map (·.1)).Nodup := by rw [List.map_map]; exact hn
  have e1 := get_of_nodup hn' (List.mem_map_of_mem (f := fun x => (slashName x.1, x.1)) h1)
  have e2 := get_of_nodup hn' (List.mem_map_of_mem (f := fun x => (slashName x.1, x.1)) h2)
  simp only at e1 e2
  rw [e, e2] at e1
  exact (Option.some.inj e1).symm

theorem distinct_of_keysOk {α} {t : Tree α} (h : t.KeysOk) : t.Distinct := keysOk_distinct t h

theorem savedApart_of {α} {t : Tree α} (hn : ((t.flat true).map fun x => slashName x.1).Nodup) : SavedApart t := by
  intro x hx y hy e
  have hn' : (((t.flat true).map fun x => (slashName x.1, x.1)).map (·.1)).Nodup := by rw [List.map_map]; exact hn
  have e1 := get_of_nodup hn' (List.mem_map_of_mem (f := fun x => (slashName x.1, x.1)) hx)
  have e2 := get_of_nodup hn' (List.mem_map_of_mem (f := fun x => (slashName x.1, x.1)) hy)
  simp only at e1 e2
  rw [e, e2] at e1
  exact (Option.some.inj e1).symm

theorem dictKeys3 {α} (a b c : α) : (dictNode [(['a'], .leaf a), (['f'], .leaf b), (['g'], .leaf c)] : Tree α).KeysOk := by
  simp only [dictNode, Forest.ofList, List.map, Tree.KeysOk, Forest.KeysOk, Forest.keys, and_true]
  exact .inl (by decide)

theorem dictKeys1 {α} (n : Name) (u : Tree α) (h : u.KeysOk) : (dictNode [(n, u)] : Tree α).KeysOk := by
  simp only [dictNode, Forest.ofList, List.map, Tree.KeysOk, Forest.KeysOk, Forest.keys, and_true]
  exact ⟨.inl (by simp [Key.cls]), h⟩

theorem exRequest_leaf {p : List Key} {v : Nat} (h : exRequest.item.at_ p = some (.leaf v)) :
    (p = [.dict (.str ['a'])] ∧ v = 0) ∨ (p = [.dict (.str ['f'])] ∧ v = 0) ∨ (p = [.dict (.str ['g'])] ∧ v = 7) := by
  have := leaf_mem (distinct_of_keysOk (dictKeys3 _ _ _)) h
  simpa [exRequest, dictNode, Forest.ofList, Tree.flat, Forest.flat, Forest.isEmpty] using this

theorem exRequest_list : exRequest.list = [(['a'], { originalKey := some ['b', '/', 'c'] })] := rfl

theorem exRequest_ok : exRequest.Ok (pathsOf exSavedTree) := by
  refine ⟨distinct_of_keysOk (dictKeys3 _ _ _), namesApart_of (distinct_of_keysOk (dictKeys3 _ _ _)) (by decide),
    distinct_of_keysOk (dictKeys1 _ _ trivial), namesApart_of (distinct_of_keysOk (dictKeys1 _ _ trivial)) ?_, rfl, ?_, ?_, ?_⟩
  · show ([_] : List _).Nodup
    simp
  · intro p v hp q hq e
    have hq' : q = [.dict (.str ['b']), .dict (.str ['c'])] ∨ q = [.dict (.str ['f'])] ∨ q = [.dict (.str ['u'])] := by
      simpa [pathsOf, exSavedTree_flat] using hq
    rcases exRequest_leaf hp with ⟨rfl, -⟩ | ⟨rfl, -⟩ | ⟨rfl, -⟩ <;> rcases hq' with rfl | rfl | rfl <;> first | rfl | exact absurd e (by decide)
  · intro p kd hp
    have := (exRequest.item.flat_spec true (distinct_of_keysOk (dictKeys3 _ _ _)) p _).mpr ⟨hp, rfl, by simp⟩
    simp [exRequest, dictNode, Forest.ofList, Tree.flat, Forest.flat, Forest.isEmpty] at this
  · intro kd h
    cases h

theorem exRequest_wants {n : Name} {a : RArg} (h : exRequest.Wants n a) : a = none := by
  rcases h with ⟨x, hx, h1, -⟩ | ⟨p, v, h1, h2, -⟩
  · rw [exRequest_list] at hx
    simp only [List.mem_singleton] at hx
    subst hx
    exact absurd rfl h1
  · rcases exRequest_leaf h1 with ⟨rfl, -⟩ | ⟨rfl, -⟩ | ⟨rfl, -⟩ <;> (simp [exRequest, dictNode, Forest.ofList, Tree.at_, Forest.get] at h2; exact h2.symm)

theorem exRequest_typed : exRequest.Typed := by
  intro n ty h
  cases exRequest_wants h

/-- The hypotheses of `C86_restore`, `C86_values`, `C86_succeeds` and `C86_reads_only_wanted` can be met: `a` is the saved `b/c`, `f` the saved `f`,
`g` keeps its value; the value of `u` is not read. -/
theorem C86_restore_nonvacuous : ∃ ck ck' r, Saved natCodec exOptions exSavedTree ck ∧ Assoc.get ck.params ['u'] = some 9 ∧
    Assoc.get ck'.params ['u'] = none ∧
    restoreT natCodec exOptions ck exactMatch true (some exRequest.item) (some exRequest.args) exRequest.rules = some r ∧
    restoreT natCodec exOptions ck' exactMatch true (some exRequest.item) (some exRequest.args) exRequest.rules = some r ∧
    r.at_ [.dict (.str ['a'])] = some (.leaf (.value 5)) ∧ r.at_ [.dict (.str ['f'])] = some (.leaf (.value 2)) ∧
    r.at_ [.dict (.str ['g'])] = some (.leaf (.value 7)) := by
  obtain ⟨ck, hs⟩ := (C85_save natCodec exOptions exSavedTree exSavedTree_keys).mpr ⟨fun k h => (by cases h), fun p v _ => ⟨_, rfl⟩⟩
  have hn : (paramNames false exSavedTree).Nodup := by decide
  have ht : SavedApart exSavedTree := savedApart_of (by decide)
  have hok := (C86_succeeds natCodec natCodec_faithful exOptions exSavedTree ck exSavedTree_keys hn ht hs exRequest exRequest_ok exRequest_typed
    (by intro x hx h; rw [exRequest_list] at hx; simp only [List.mem_singleton] at hx; subst hx; exact absurd rfl h)
    (by intro q x a _ h; rw [exRequest_wants h]; exact ⟨x, rfl⟩)).mpr (by
    intro p v hp x hx expand he
    rw [exRequest_list] at hx
    simp only [List.mem_singleton] at hx
    subst hx
    refine ⟨by simp, fun _ h => absurd rfl h, fun _ => ⟨[.dict (.str ['b']), .dict (.str ['c'])], by simp [pathsOf, exSavedTree_flat], ?_⟩⟩
    have : expand = id := by
      simp only [exRequest, exactMatch] at he
      split at he
      · exact (Option.some.inj he).symm
      · cases he
    subst this
    rfl)
  obtain ⟨r, hr⟩ := Option.isSome_iff_exists.mp hok
  have hval := C86_values natCodec natCodec_faithful exOptions exSavedTree ck exSavedTree_keys hn ht hs exRequest exRequest_ok exRequest_typed
    (by intro x hx; rw [exRequest_list] at hx; simp only [List.mem_singleton] at hx; subst hx; exact ⟨rfl, rfl⟩)
    (by
      intro q kd hq
      have := (exSavedTree.flat_spec true (distinct_of_keysOk exSavedTree_keys) q _).mpr ⟨hq, rfl, by simp⟩
      simp [exSavedTree_flat] at this) r hr
  have hleaf : ∀ q x, exSavedTree.at_ q = some (.leaf x) →
      (q = [.dict (.str ['b']), .dict (.str ['c'])] ∧ x = 5) ∨ (q = [.dict (.str ['f'])] ∧ x = 2) ∨ (q = [.dict (.str ['u'])] ∧ x = 9) := by
    intro q x hq
    have := leaf_mem (distinct_of_keysOk exSavedTree_keys) hq
    simpa [exSavedTree_flat] using this
  have hsrc_a : ∀ n, exRequest.Source [.dict (.str ['a'])] n → n = ['b', '/', 'c'] := by
    rintro n (⟨pre, x, post, expand, h1, h2, -, h3, -⟩ | ⟨h1, -⟩)
    · have hx : x ∈ exRequest.list := by rw [h1]; simp
      rw [exRequest_list] at hx
      simp only [List.mem_singleton] at hx
      subst hx
      cases h2
      exact h3
    · have := congrArg Option.isSome (h1 (['a'], { originalKey := some ['b', '/', 'c'] }) (by rw [exRequest_list]; simp))
      exact absurd this (by decide)
  have hsrc : ∀ m : Name, m = ['f'] ∨ m = ['g'] → ∀ n, exRequest.Source [.dict (.str m)] n → n = m := by
    rintro m hm n (⟨pre, x, post, expand, h1, h2, -, h3, -⟩ | ⟨-, -, h3⟩)
    · have hx : x ∈ exRequest.list := by rw [h1]; simp
      rw [exRequest_list] at hx
      simp only [List.mem_singleton] at hx
      subst hx
      rcases hm with rfl | rfl <;> cases h2
    · rcases hm with rfl | rfl <;> exact h3
  have hsrc_f : exRequest.Source [.dict (.str ['f'])] ['f'] := .inr ⟨by
    intro y hy
    rw [exRequest_list] at hy
    simp only [List.mem_singleton] at hy
    subst hy
    rfl, rfl, rfl⟩
  have hsrc_a' : exRequest.Source [.dict (.str ['a'])] ['b', '/', 'c'] :=
    .inl ⟨[], _, [], id, exRequest_list, rfl, fun h => (by cases h.1), rfl, by simp⟩
  refine ⟨ck, ⟨ck.metadata, Assoc.del ck.params ['u']⟩, r, hs, ?_, ?_, hr, ?_, ?_, ?_, ?_⟩
  · obtain ⟨M, hM⟩ := saved_meta natCodec exOptions exSavedTree ck natCodec_faithful exSavedTree_keys hs
    exact hM.params hn ([.dict (.str ['u'])], .leaf 9) (by simp [exSavedTree_flat]) 9 rfl
  · simp [Assoc.get_del]
  · rw [← hr]
    refine C86_reads_only_wanted natCodec natCodec_faithful exOptions exSavedTree ck _ exSavedTree_keys hs exRequest exRequest_ok rfl ?_
    intro q x a hq hw
    have hu : q ≠ [.dict (.str ['u'])] := by
      rintro rfl
      rcases hw with ⟨x, hx, h1, -⟩ | ⟨p, v, h1, -, h2⟩
      · rw [exRequest_list] at hx
        simp only [List.mem_singleton] at hx
        subst hx
        exact absurd rfl h1
      · rcases h2 with ⟨x, hx, -, expand, h3, h4⟩ | ⟨h3, -⟩
        · rw [exRequest_list] at hx
          simp only [List.mem_singleton] at hx
          subst hx
          have : expand = id := by
            simp only [exRequest, exactMatch] at h3
            split at h3
            · exact (Option.some.inj h3).symm
            · cases h3
          subst this
          exact absurd (show (['u'] : Name) = ['b', '/', 'c'] from h4) (by decide)
        · rcases exRequest_leaf h1 with ⟨rfl, -⟩ | ⟨rfl, -⟩ | ⟨rfl, -⟩ <;> exact absurd h3 (by decide)
    rcases hleaf q x hq with ⟨rfl, -⟩ | ⟨rfl, -⟩ | ⟨rfl, -⟩
    · simp [Assoc.get_del, paramName, strPath, join, Key.name, Key.str, Atom.toStr]
    · simp [Assoc.get_del, paramName, strPath, join, Key.name, Key.str, Atom.toStr]
    · exact absurd rfl hu
  · obtain ⟨w, h1, h2⟩ := hval [.dict (.str ['a'])] 0 rfl
    rw [h1]
    rcases h2 with ⟨q, x, a, h3, h4, h5, h6⟩ | ⟨-, h3⟩
    · rw [exRequest_wants h5] at h6
      have h6 : w = x := h6
      rw [h6]
      rcases hleaf q x h4 with ⟨rfl, rfl⟩ | ⟨rfl, rfl⟩ | ⟨rfl, rfl⟩
      · rfl
      · exact absurd (hsrc_a _ h3) (by decide)
      · exact absurd (hsrc_a _ h3) (by decide)
    · exact absurd rfl (h3 _ hsrc_a' [.dict (.str ['b']), .dict (.str ['c'])] (by simp [pathsOf, exSavedTree_flat]))
  · obtain ⟨w, h1, h2⟩ := hval [.dict (.str ['f'])] 0 rfl
    rw [h1]
    rcases h2 with ⟨q, x, a, h3, h4, h5, h6⟩ | ⟨-, h3⟩
    · rw [exRequest_wants h5] at h6
      have h6 : w = x := h6
      rw [h6]
      rcases hleaf q x h4 with ⟨rfl, rfl⟩ | ⟨rfl, rfl⟩ | ⟨rfl, rfl⟩
      · exact absurd (hsrc ['f'] (.inl rfl) _ h3) (by decide)
      · rfl
      · exact absurd (hsrc ['f'] (.inl rfl) _ h3) (by decide)
    · exact absurd rfl (h3 _ hsrc_f [.dict (.str ['f'])] (by simp [pathsOf, exSavedTree_flat]))
  · obtain ⟨w, h1, h2⟩ := hval [.dict (.str ['g'])] 7 rfl
    rw [h1]
    rcases h2 with ⟨q, x, a, h3, h4, h5, h6⟩ | ⟨rfl, -⟩
    · rcases hleaf q x h4 with ⟨rfl, rfl⟩ | ⟨rfl, rfl⟩ | ⟨rfl, rfl⟩
      · exact absurd (hsrc ['g'] (.inr rfl) _ h3) (by decide)
      · exact absurd (hsrc ['g'] (.inr rfl) _ h3) (by decide)
      · exact absurd (hsrc ['g'] (.inr rfl) _ h3) (by decide)
    · rfl

/-- C86 (finding): an empty container of the item that a transform matches hides the leaf that needs the same saved value: with the item
`{'a': {}, 'b': 0}` and a transform taking `x` for every name, `b` becomes a metadata object, not the saved value of `x`. -/
theorem C86_empty_item_fails : ∃ (R : Request Nat) (t : Tree Nat) (ck : Ckpt Nat) (r : Tree (Got Nat)) (m : P),
    R.item.at_ [.dict (.str ['a'])] = some emptyDict ∧ R.item.at_ [.dict (.str ['b'])] = some (.leaf 0) ∧ R.args.shape = R.item.shape ∧
    (∃ ru, R.list = [ru] ∧ ru.2.Single ∧ ru.2.valueFn = none ∧ (R.fm ru.1 ['b']).map (fun expand => ru.2.originalKey.elim ['b'] expand) = some ['x']) ∧
    t.at_ [.dict (.str ['x'])] = some (.leaf 5) ∧ Saved natCodec exOptions t ck ∧
    restoreT natCodec exOptions ck R.fm R.dto (some R.item) (some R.args) R.rules = some r ∧ r.at_ [.dict (.str ['b'])] = some (.leaf (.entry m)) := by
  have hik : (dictNode [(['a'], emptyDict), (['b'], .leaf 0)] : Tree Nat).KeysOk := by
    simp only [dictNode, emptyDict, Forest.ofList, List.map, Tree.KeysOk, Forest.KeysOk, Forest.keys, and_true]
    exact ⟨.inl (by decide), .inl (by decide)⟩
  have htk : (dictNode [(['x'], .leaf 5)] : Tree Nat).KeysOk := dictKeys1 _ _ trivial
  have hrk : (dictNode [(['r'], .leaf { originalKey := some ['x'] })] : Tree (RRule Nat)).KeysOk := dictKeys1 _ _ trivial
  obtain ⟨ck, hs⟩ := (C85_save natCodec exOptions (dictNode [(['x'], .leaf 5)]) htk).mpr ⟨fun k h => (by cases h), fun p v _ => ⟨_, rfl⟩⟩
  obtain ⟨T, r, h1, h2, h3, h4⟩ := run natCodec_faithful htk (savedApart_of (by decide)) hs
    ⟨fun _ _ => some id, true, dictNode [(['a'], emptyDict), (['b'], .leaf 0)], dictNode [(['a'], emptyDict), (['b'], .leaf none)],
      dictNode [(['r'], .leaf { originalKey := some ['x'] })]⟩
    (distinct_of_keysOk hik) (namesApart_of (distinct_of_keysOk hik) (by decide)) (distinct_of_keysOk hrk)
    (namesApart_of (distinct_of_keysOk hrk) (by show ([_] : List _).Nodup; simp)) (by intro kd h; cases h) (by
      intro q hq
      have : q = [.dict (.str ['x'])] := by simpa [pathsOf, dictNode, Forest.ofList, Tree.flat, Forest.flat, Forest.isEmpty] using hq
      subst this
      rfl) (by
      intro p v _ x hx expand he
      have : x = (['r'], { originalKey := some ['x'] }) := by
        simpa [Request.list, dictNode, Forest.ofList, Tree.flat, Forest.flat, Forest.isEmpty, slashName, strPath, join, Key.str, Key.name, Atom.toStr] using hx
      subst this
      cases he
      exact ⟨⟨rfl, rfl⟩, [.dict (.str ['x'])], by simp [pathsOf, dictNode, Forest.ofList, Tree.flat, Forest.flat, Forest.isEmpty], rfl⟩)
  obtain ⟨w, h5, h6⟩ := h4 [.dict (.str ['b'])] 0 rfl
  have hw : ∃ m, w = .leaf (.entry m) := by
    rcases h6 with ⟨pre, x, post, expand, g1, g2, g3, g4, -⟩ | ⟨g1, g2, g3⟩
    · rw [rulesOf_map] at g1
      have hx : x ∈ pre ++ x :: post := by simp
      rw [← g1] at hx
      obtain ⟨y, hy, rfl⟩ := List.mem_map.mp hx
      have : y = (['r'], { originalKey := some ['x'] }) := by
        simpa [Request.list, dictNode, Forest.ofList, Tree.flat, Forest.flat, Forest.isEmpty, slashName, strPath, join, Key.str, Key.name, Atom.toStr] using hy
      subst this
      rcases g4 with ⟨k1, -⟩ | ⟨-, m, k1, -⟩ | ⟨k1, k2, u, k3, k4⟩
      · cases k1
      · cases k1
      · obtain ⟨m, rfl⟩ := h2 _ _ k3
        exact ⟨m, k4⟩
    · exact absurd (g1 (['r'], _) (by rw [rulesOf_map]; exact List.mem_map_of_mem (List.mem_singleton.mpr rfl)) (by simp)) (by intro h; cases h.1)
  obtain ⟨m, rfl⟩ := hw
  exact ⟨_, dictNode [(['x'], .leaf 5)], ck, r, m, rfl, rfl, rfl, ⟨_, rfl, ⟨rfl, rfl⟩, rfl, rfl⟩, rfl, hs, h1, h5⟩

/-- A saved `{'a': {'b': 1}}` is not found as `{'a/b': 0}`. -/
theorem C86_slash_nonvacuous : ∃ ck r m, Saved natCodec exOptions (dictNode [(['a'], dictNode [(['b'], .leaf 1)])]) ck ∧
    restoreT natCodec exOptions ck exactMatch true (some (dictNode [(['a', '/', 'b'], .leaf 0)])) (some (dictNode [(['a', '/', 'b'], .leaf none)])) emptyDict = some r ∧
    r.at_ [.dict (.str ['a', '/', 'b'])] = some (.leaf (.entry m)) := by
  have htk : (dictNode [(['a'], dictNode [(['b'], .leaf 1)])] : Tree Nat).KeysOk := dictKeys1 _ _ (dictKeys1 _ _ trivial)
  have hik : (dictNode [(['a', '/', 'b'], .leaf 0)] : Tree Nat).KeysOk := dictKeys1 _ _ trivial
  obtain ⟨ck, hs⟩ := (C85_save natCodec exOptions _ htk).mpr ⟨fun k h => (by cases h), fun p v _ => ⟨_, rfl⟩⟩
  obtain ⟨r, h1, m, h2⟩ := C86_slash_fails natCodec natCodec_faithful exOptions _ ck htk (savedApart_of (by decide)) hs (dictNode [(['a', '/', 'b'], .leaf 0)])
    (dictNode [(['a', '/', 'b'], .leaf none)]) exactMatch (distinct_of_keysOk hik) (namesApart_of (distinct_of_keysOk hik) (by decide))
    (by intro kd h; cases h) (by
      intro p v hp q hq e
      have : q = [.dict (.str ['a']), .dict (.str ['b'])] := by simpa [pathsOf, dictNode, Forest.ofList, Tree.flat, Forest.flat, Forest.isEmpty] using hq
      subst this
      have hlen : p.length = 2 := by have := congrArg List.length e; simpa [strPath] using this
      obtain ⟨k1, k2, rfl⟩ : ∃ k1 k2, p = [k1, k2] := by
        match p, hlen with
        | [k1, k2], _ => exact ⟨k1, k2, rfl⟩
      simp only [dictNode, Forest.ofList, List.map, Tree.at_, Forest.get] at hp
      split at hp <;> simp [Tree.at_] at hp) [.dict (.str ['a', '/', 'b'])] [.dict (.str ['a']), .dict (.str ['b'])] 0 rfl
    (by simp [pathsOf, dictNode, Forest.ofList, Tree.flat, Forest.flat, Forest.isEmpty]) rfl
  exact ⟨ck, r, m, hs, h1, h2⟩

/-- Numbers with a type. -/
def typedCodec : Codec (Name × Nat) Nat := ⟨fun v => if isEmptyType v.1 then none else some v.1, (·.2), fun s d => some (s, d)⟩

theorem typedCodec_faithful : Faithful typedCodec := by
  intro v s h
  simp only [typedCodec] at h ⊢
  split at h
  · cases h
  · rename_i h1
    cases h
    exact ⟨by simpa using h1, rfl⟩

/-- The item `{'a': 0, 'b': 0}` with different types, and both from `x`. -/
def exShared : Request (Name × Nat) :=
  ⟨exactMatch, true, dictNode [(['a'], .leaf (['i'], 0)), (['b'], .leaf (['i'], 0))], dictNode [(['a'], .leaf (some ['f'])), (['b'], .leaf (some ['g']))],
    dictNode [(['a'], .leaf { originalKey := some ['x'] }), (['b'], .leaf { originalKey := some ['x'] })]⟩

theorem dictKeys2 {α} (a b : Tree α) (ha : a.KeysOk) (hb : b.KeysOk) : (dictNode [(['a'], a), (['b'], b)] : Tree α).KeysOk := by
  simp only [dictNode, Forest.ofList, List.map, Tree.KeysOk, Forest.KeysOk, Forest.keys, and_true]
  exact ⟨.inl (by decide), ha, hb⟩

theorem exShared_list : exShared.list = [(['a'], { originalKey := some ['x'] }), (['b'], { originalKey := some ['x'] })] := rfl

theorem exShared_leaf {p : List Key} {v : Name × Nat} (h : exShared.item.at_ p = some (.leaf v)) : p = [.dict (.str ['a'])] ∨ p = [.dict (.str ['b'])] := by
  have := leaf_mem (t := exShared.item) (distinct_of_keysOk (dictKeys2 (.leaf _) (.leaf _) trivial trivial)) h
  simp [exShared, dictNode, Forest.ofList, Tree.flat, Forest.flat, Forest.isEmpty] at this
  rcases this with ⟨h, -⟩ | ⟨h, -⟩ <;> simp [h]

theorem exShared_rule {x : Name × RRule (Name × Nat)} (hx : x ∈ exShared.list) :
    x.2.originalKey = some ['x'] ∧ x.2.multiFn = none ∧ x.2.valueFn = none ∧ x.2.useFallback = false := by
  rw [exShared_list] at hx
  simp only [List.mem_cons, List.not_mem_nil, or_false] at hx
  rcases hx with rfl | rfl <;> exact ⟨rfl, rfl, rfl, rfl⟩

theorem exShared_ok : exShared.Ok (pathsOf (dictNode [(['x'], .leaf (['i'], 5))] : Tree (Name × Nat))) := by
  have hd := distinct_of_keysOk (dictKeys2 (.leaf ((['i'], 0) : Name × Nat)) (.leaf (['i'], 0)) trivial trivial)
  refine ⟨hd, namesApart_of hd (by decide), distinct_of_keysOk (dictKeys2 _ _ trivial trivial),
    namesApart_of (distinct_of_keysOk (dictKeys2 _ _ trivial trivial)) ?_, rfl, ?_, ?_, ?_⟩
  · show ([(['a'] : Name), ['b']] : List Name).Nodup
    decide
  · intro p v hp q hq e
    have : q = [.dict (.str ['x'])] := by simpa [pathsOf, dictNode, Forest.ofList, Tree.flat, Forest.flat, Forest.isEmpty] using hq
    subst this
    rcases exShared_leaf hp with rfl | rfl <;> exact absurd e (by decide)
  · intro p kd hp
    have := (exShared.item.flat_spec true hd p _).mpr ⟨hp, rfl, by simp⟩
    simp [exShared, dictNode, Forest.ofList, Tree.flat, Forest.flat, Forest.isEmpty] at this
  · intro kd h
    cases h

theorem exShared_wants {n : Name} {a : RArg} (h : exShared.Wants n a) : a = some ['f'] ∨ a = some ['g'] := by
  rcases h with ⟨x, hx, h1, -⟩ | ⟨p, v, h1, h2, -⟩
  · exact absurd (exShared_rule hx).2.1 h1
  · rcases exShared_leaf h1 with rfl | rfl
    · left; cases h2; rfl
    · right; cases h2; rfl

/-- The hypotheses of `C86_shared_value_fails` can be met. -/
theorem C86_shared_value_nonvacuous : ∃ ck r, Saved typedCodec exOptions (dictNode [(['x'], .leaf (['i'], 5))]) ck ∧
    restoreT typedCodec exOptions ck exactMatch true (some exShared.item) (some exShared.args) exShared.rules = some r ∧
    ¬ (r.at_ [.dict (.str ['a'])] = some (.leaf (.value (['f'], 5))) ∧ r.at_ [.dict (.str ['b'])] = some (.leaf (.value (['g'], 5)))) := by
  have htk : (dictNode [(['x'], .leaf (['i'], 5))] : Tree (Name × Nat)).KeysOk := dictKeys1 _ _ trivial
  have hl : ∀ q v, (dictNode [(['x'], .leaf (['i'], 5))] : Tree (Name × Nat)).at_ q = some (.leaf v) → q = [.dict (.str ['x'])] ∧ v = (['i'], 5) := by
    intro q v h
    have := leaf_mem (distinct_of_keysOk htk) h
    simpa [dictNode, Forest.ofList, Tree.flat, Forest.flat, Forest.isEmpty] using this
  obtain ⟨ck, hs⟩ := (C85_save typedCodec exOptions _ htk).mpr ⟨fun k h => (by cases h), fun p v h => (by rw [(hl p v h).2]; exact ⟨_, rfl⟩)⟩
  have hn : (paramNames false (dictNode [(['x'], .leaf (['i'], 5))] : Tree (Name × Nat))).Nodup := by decide
  have hty : exShared.Typed := by
    intro n ty h
    rcases exShared_wants h with h | h <;> cases h <;> rfl
  have ht : SavedApart (dictNode [(['x'], .leaf (['i'], 5))] : Tree (Name × Nat)) := savedApart_of (by decide)
  have hexp : ∀ {pat n : Name} {expand}, exShared.fm pat n = some expand → expand = id := by
    intro pat n expand he
    simp only [exShared, exactMatch] at he
    split at he
    · exact (Option.some.inj he).symm
    · cases he
  have hok := (C86_succeeds typedCodec typedCodec_faithful exOptions _ ck htk hn ht hs exShared exShared_ok hty
    (fun x hx h => absurd (exShared_rule hx).2.1 h)
    (by intro q x a _ h; rcases exShared_wants h with rfl | rfl <;> exact ⟨_, rfl⟩)).mpr (by
    intro p v hp x hx expand he
    obtain ⟨h1, h2, h3, h4⟩ := exShared_rule hx
    refine ⟨fun h => (by rw [h4] at h; cases h), fun _ h => absurd h2 h, fun _ =>
      ⟨[.dict (.str ['x'])], by simp [pathsOf, dictNode, Forest.ofList, Tree.flat, Forest.flat, Forest.isEmpty], ?_⟩⟩
    rw [hexp he, h1]
    rfl)
  obtain ⟨r, hr⟩ := Option.isSome_iff_exists.mp hok
  refine ⟨ck, r, hs, hr, ?_⟩
  refine C86_shared_value_fails typedCodec typedCodec_faithful exOptions _ ck htk hn ht hs exShared exShared_ok hty
    (fun x hx => ⟨(exShared_rule hx).2.1, (exShared_rule hx).2.2.1⟩) [.dict (.str ['a'])] [.dict (.str ['b'])] [.dict (.str ['x'])] _ _ (['i'], 5) rfl rfl rfl
    (.inl ⟨[], _, _, id, exShared_list, rfl, fun h => (by cases h.1), rfl, ?_⟩) (.inl ⟨[_], _, [], id, exShared_list, rfl, fun h => (by cases h.1), rfl, by simp⟩)
    (some ['f']) (some ['g']) _ _ rfl rfl (by decide) r hr
  intro y hy hne
  simp only [List.mem_singleton] at hy
  subst hy
  exact absurd rfl hne

/-- The hypotheses of `C86_empty_value_fails` can be met: `{'f': ()}` saved, `{'a': 0, 'f': 0, 'g': 7}` asked for. -/
theorem C86_empty_value_nonvacuous : ∃ ck r m, Saved natCodec exOptions (dictNode [(['f'], .node .tuple .nil)]) ck ∧
    restoreT natCodec exOptions ck exactMatch true (some exRequest.item) (some exRequest.args) emptyDict = some r ∧
    r.at_ [.dict (.str ['f'])] = some (.leaf (.entry m)) := by
  have htk : (dictNode [(['f'], .node .tuple .nil)] : Tree Nat).KeysOk := dictKeys1 _ _ ⟨.inl (by simp [Forest.keys]), trivial⟩
  obtain ⟨ck, hs⟩ := (C85_save natCodec exOptions _ htk).mpr ⟨fun k h => (by cases h), fun p v _ => ⟨_, rfl⟩⟩
  have hpaths : pathsOf (dictNode [(['f'], .node .tuple .nil)] : Tree Nat) = [[.dict (.str ['f'])]] := rfl
  have hlist : Request.list ⟨exactMatch, true, exRequest.item, exRequest.args, emptyDict⟩ = [] := rfl
  have hR : Request.Ok ⟨exactMatch, true, exRequest.item, exRequest.args, emptyDict⟩ (pathsOf (dictNode [(['f'], .node .tuple .nil)] : Tree Nat)) := by
    refine ⟨exRequest_ok.item, exRequest_ok.itemNames, ?_, ?_, exRequest_ok.args, ?_, ?_, exRequest_ok.nonempty⟩
    · simp [emptyDict, Tree.Distinct, Forest.Distinct, Forest.keys]
    · intro p q a b h
      cases p with
      | nil => simp [Tree.at_, emptyDict] at h
      | cons k p => simp [Tree.at_, emptyDict, Forest.get] at h
    · intro p v hp q hq e
      rw [hpaths] at hq
      simp only [List.mem_singleton] at hq
      subst hq
      rcases exRequest_leaf hp with ⟨rfl, -⟩ | ⟨rfl, -⟩ | ⟨rfl, -⟩ <;> first | rfl | exact absurd e (by decide)
    · rintro p kd - n ⟨x, hx, -⟩
      rw [hlist] at hx
      cases hx
  have hw : ∀ n a, Request.Wants ⟨exactMatch, true, exRequest.item, exRequest.args, emptyDict⟩ n a → a = none := by
    rintro n a (⟨x, hx, -⟩ | ⟨p, v, h1, h2, -⟩)
    · rw [hlist] at hx
      cases hx
    · rcases exRequest_leaf h1 with ⟨rfl, -⟩ | ⟨rfl, -⟩ | ⟨rfl, -⟩ <;> (cases h2; rfl)
  have hty : Request.Typed ⟨exactMatch, true, exRequest.item, exRequest.args, emptyDict⟩ := by
    intro n ty h
    cases hw _ _ h
  have hn : (paramNames false (dictNode [(['f'], .node .tuple .nil)] : Tree Nat)).Nodup := by decide
  have ht : SavedApart (dictNode [(['f'], .node .tuple .nil)] : Tree Nat) := savedApart_of (by decide)
  have hok := (C86_succeeds natCodec natCodec_faithful exOptions _ ck htk hn ht hs _ hR hty
    (by intro x hx; rw [hlist] at hx; cases hx) (by intro q x a _ h; rw [hw _ _ h]; exact ⟨x, rfl⟩)).mpr (by
    intro p v hp x hx
    rw [hlist] at hx
    cases hx)
  obtain ⟨r, hr⟩ := Option.isSome_iff_exists.mp hok
  obtain ⟨m, hm⟩ := C86_empty_value_fails natCodec natCodec_faithful exOptions _ ck htk hn ht hs _ hR hty rfl [.dict (.str ['f'])] [.dict (.str ['f'])] 0 .tuple rfl rfl rfl
    (by intro x hx; rw [hlist] at hx; cases hx) r hr
  exact ⟨ck, r, m, hs, hr, hm⟩

/-- The hypotheses of `C86_undeclared_inputs_fails` can be met: the transform `{'z': Transform(multi_value_fn=...)}` makes restoring fail. -/
theorem C86_undeclared_inputs_nonvacuous : ∃ ck, Saved natCodec exOptions exSavedTree ck ∧
    restoreT natCodec exOptions ck exactMatch true (some exRequest.item) (some exRequest.args)
      (dictNode [(['z'], .leaf { multiFn := some fun _ T _ => T, isRestore := false })]) = none := by
  obtain ⟨ck, hs⟩ := (C85_save natCodec exOptions exSavedTree exSavedTree_keys).mpr ⟨fun k h => (by cases h), fun p v _ => ⟨_, rfl⟩⟩
  refine ⟨ck, hs, ?_⟩
  exact C86_undeclared_inputs_fails natCodec natCodec_faithful exOptions exSavedTree ck exSavedTree_keys hs
    ⟨exactMatch, true, exRequest.item, exRequest.args, dictNode [(['z'], .leaf { multiFn := some fun _ T _ => T, isRestore := false })]⟩
    (distinct_of_keysOk (dictKeys1 _ _ trivial)) (by simp [exSavedTree_flat]) _ _ rfl (by simp) (.inl rfl)

end Verif.PyTree
