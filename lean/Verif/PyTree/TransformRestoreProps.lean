import Verif.PyTree.TransformCore

/-!
# Property C86: restoring a PyTree with transforms
-/

namespace Verif.PyTree

open Verif Verif.Trees Verif.TreeMetadata

/-! ### Specification -/

/-- Reading the saved value `x` with the restore type `a` gives `v`. -/
def ReadsAs {V D} (C : Codec V D) (x : V) : RArg → V → Prop
  | none, v => v = x
  | some ty, v => C.read ty (C.write x) = some v

/-- The tree is the checkpoint of `t` as far as it was loaded: a wanted value was read as it is wanted, the others were not read; their
metadata is in their place. -/
structure Loaded {V D} (C : Codec V D) (R : Request V) (t : Tree V) (T : Tree (Got V)) : Prop where
  values : ∀ q x, t.at_ q = some (.leaf x) → ∃ g, T.at_ (q.map normKey) = some (.leaf g) ∧
    ((∃ a v, R.Wants (slashName q) a ∧ g = .value v ∧ ReadsAs C x a v) ∨ ((∀ a, ¬ R.Wants (slashName q) a) ∧ ∃ e, g = .entry e))
  empties : ∀ q kd, t.at_ q = some (.node kd .nil) → ∃ e, T.at_ (q.map normKey) = some (.leaf (.entry e))
  only : ∀ q g, T.at_ q = some (.leaf g) → ∃ x ∈ t.flat true, x.1.map normKey = q

/-- The transform asks for the item's value. -/
def RRule.Keeps {V} (dto : Bool) (r : RRule V) : Prop := r.useFallback = true ∧ dto = true

/-- The transform gives `w` to the leaf `p` of the item, from the loaded tree. -/
def Request.RuleGives {V} (R : Request V) (T : Tree (Got V)) (p : List Key) (expand : Name → Name) (r : RRule V) (w : Tree (Got V)) : Prop :=
  (r.useFallback = true ∧ Holds T (slashName p) w) ∨
  (r.useFallback = false ∧ ∃ m a, r.multiFn = some m ∧ R.args.at_ p = some (.leaf a) ∧ w = m (slashName p) T a) ∨
  (r.Single ∧ ∃ u, Holds T (r.originalKey.elim (slashName p) expand) u ∧ w = (r.valueFn.getD id) u)

/-- The value `w` of the leaf `p` of the result: that of the last matching transform which does not ask for the item's value; otherwise the
item's value, if some transform matches; otherwise the loaded value of the same name, if there is one and this is the default. -/
def Request.Gives {V} (R : Request V) (T : Tree (Got V)) (p : List Key) (own w : Tree (Got V)) : Prop :=
  (∃ pre x post expand, R.list = pre ++ x :: post ∧ R.fm x.1 (slashName p) = some expand ∧ ¬ x.2.Keeps R.dto ∧ R.RuleGives T p expand x.2 w ∧
    ∀ y ∈ post, R.fm y.1 (slashName p) ≠ none → y.2.Keeps R.dto) ∨
  ((∀ y ∈ R.list, R.fm y.1 (slashName p) ≠ none → y.2.Keeps R.dto) ∧
    ((∃ y ∈ R.list, R.fm y.1 (slashName p) ≠ none) → w = own) ∧
    ((¬ ∃ y ∈ R.list, R.fm y.1 (slashName p) ≠ none) →
      (R.dto = true ∧ Holds T (slashName p) w) ∨ (w = own ∧ ¬ (R.dto = true ∧ ∃ u, Holds T (slashName p) u))))

/-- The leaf `p` of the result comes from the checkpoint's value called `n`, without functions. -/
def Request.Source {V} (R : Request V) (p : List Key) (n : Name) : Prop :=
  (∃ pre x post expand, R.list = pre ++ x :: post ∧ R.fm x.1 (slashName p) = some expand ∧ ¬ x.2.Keeps R.dto ∧
    n = (if x.2.useFallback then slashName p else x.2.originalKey.elim (slashName p) expand) ∧
    ∀ y ∈ post, R.fm y.1 (slashName p) ≠ none → y.2.Keeps R.dto) ∨
  ((∀ y ∈ R.list, R.fm y.1 (slashName p) = none) ∧ R.dto = true ∧ n = slashName p)

/-- The paths of the values of a tree. -/
def pathsOf {V} (t : Tree V) : List (List Key) := (t.flat true).map (·.1)

/-- The saved checkpoint can be asked for what the request wants: restore types are not those of empty containers. -/
def Request.Typed {V} (R : Request V) : Prop := ∀ n ty, R.Wants n (some ty) → isEmptyType ty = false

/-! ### Proofs -/

section
variable {V D : Type} {C : Codec V D} {o : Options} {t : Tree V} {ck : Ckpt D} {M : Py} {R : Request V}

theorem mem_paths {x : List Key × Tree V} (hx : x ∈ t.flat true) : x.1 ∈ pathsOf t := List.mem_map_of_mem hx

theorem meta_distinct (hM : Meta C o t ck M) : M.Distinct := keysOk_distinct M (pl_keysOk M (norm_pl M hM.norm))

/-- The result of reading one saved value. -/
theorem read_saved (hC : Faithful C) (hM : Meta C o t ck M) (hk : t.KeysOk) (hn : (paramNames false t).Nodup) {q : List Key} {x : V}
    (hq : t.at_ q = some (.leaf x)) (a : RArg) (ha : ∀ ty, a = some ty → isEmptyType ty = false) :
    readNamed C ck.params (strPath q) (.entry (valueOf C (.leaf x))) (.leaf a) =
      (C.read (a.getD ((C.typestr x).getD tNone)) (C.write x)).map .value := by
  have hx : (q, Tree.leaf x) ∈ t.flat true := (t.flat_spec true (keysOk_distinct t hk) q _).mpr ⟨hq, rfl, by simp⟩
  have h1 := hM.params hn _ hx x rfl
  obtain ⟨s, hs⟩ := Option.isSome_iff_exists.mp (hM.typed _ hx x rfl)
  obtain ⟨h2, h3⟩ := hC x s hs
  have h4 : isEmptyType (a.getD s) = false := by
    cases a with
    | none => exact h2
    | some ty => exact ha ty rfl
  have h5 : Assoc.get ck.params (join ['.'] (strPath q)) = some (C.write x) := h1
  simp only [readNamed, valueOf, typeOf, hs, Option.getD_some, h2, h4, Bool.false_eq_true, if_false, h5, Option.bind_eq_bind, Option.bind_some,
    Option.pure_def]
  cases C.read (a.getD s) (C.write x) <;> rfl

theorem loaded_of_tree (hC : Faithful C) (hM : Meta C o t ck M) (hk : t.KeysOk) (hn : (paramNames false t).Nodup) (hR : R.Ok (pathsOf t)) (hty : R.Typed)
    {T : Tree (Got V)} (h : R.tree C ck.params M = some T) : Loaded C R t T := by
  obtain ⟨hsh, hT⟩ := tree_some C ck.params R (meta_distinct hM) h
  have hd := keysOk_distinct t hk
  refine ⟨?_, ?_, ?_⟩
  · intro q x hq
    have hx : (q, Tree.leaf x) ∈ t.flat true := (t.flat_spec true hd q _).mpr ⟨hq, rfl, by simp⟩
    have hm := (hM.leaves (q.map normKey) _).mpr ⟨_, hx, rfl, rfl⟩
    obtain ⟨g, h1, h2⟩ := hT _ _ hm
    refine ⟨g, h2, ?_⟩
    rw [load_leaf, plan_norm, strPath_norm] at h1
    cases hp : R.plan q with
    | none => rw [hp] at h1; cases h1
    | some r =>
      rw [hp] at h1
      rcases hR.plan (mem_paths hx) hp with ⟨b, rfl, hw⟩ | ⟨rfl | ⟨k, rfl⟩, hw⟩
      · simp only at h1
        rw [read_saved hC hM hk hn hq b (fun ty e => hty _ ty (e ▸ hw))] at h1
        simp only [Option.map_map, Option.map_eq_some_iff, Function.comp_apply, Tree.leaf.injEq] at h1
        obtain ⟨v, h3, h4⟩ := h1
        refine .inl ⟨b, v, hw, h4.symm, ?_⟩
        cases b with
        | none =>
          obtain ⟨s, hs⟩ := Option.isSome_iff_exists.mp (hM.typed _ hx x rfl)
          rw [hs] at h3
          simp only [Option.getD_none, Option.getD_some] at h3
          rw [(hC x s hs).2] at h3
          exact (Option.some.inj h3).symm
        | some ty => exact h3
      · simp only [Option.some.injEq, Tree.leaf.injEq] at h1
        exact .inr ⟨hw, _, h1.symm⟩
      · refine .inr ⟨hw, ?_⟩
        simp only [readNamed, Forest.isEmpty, if_true] at h1
        split at h1 <;> simp only [Option.map_some, Option.some.injEq, Tree.leaf.injEq] at h1 <;> exact ⟨_, h1.symm⟩
  · intro q kd hq
    have hx : (q, Tree.node kd .nil) ∈ t.flat true := (t.flat_spec true hd q _).mpr ⟨hq, rfl, by simp⟩
    have hm := (hM.leaves (q.map normKey) _).mpr ⟨_, hx, rfl, rfl⟩
    obtain ⟨g, h1, h2⟩ := hT _ _ hm
    rw [load_leaf] at h1
    have hs : (valueOf C (.node kd .nil : Tree V)).skip = true := by simp [valueOf, typeOf, emptyType_kind]
    split at h1
    · cases h1
    · cases h1; exact ⟨_, h2⟩
    · simp only [readNamed, hs, if_true, Option.map_some, Option.some.injEq, Tree.leaf.injEq] at h1
      rw [← h1] at h2
      exact ⟨_, h2⟩
  · intro q g hg
    obtain ⟨e, he⟩ := leaf_of_shape hsh.symm hg
    obtain ⟨x, hx, h1, -⟩ := (hM.leaves q e).mp he
    exact ⟨x, hx, h1⟩

theorem gives_of_wrapped (hR : R.Ok (pathsOf t)) {T : Tree (Got V)} {p : List Key} {v : V} (hp : R.item.at_ p = some (.leaf v)) {own w : Tree (Got V)}
    (h : Trees.Gives R.fm (Holds T) T R.dto (rulesOf R.wrapped) (slashName p) own w) : R.Gives T p own w := by
  obtain ⟨a, ha⟩ := leaf_of_shape hR.args hp
  have hget : Assoc.get (toFlatSep ['/'] false R.args) (slashName p) = some (.leaf a) :=
    (get_slashFlat hR.argsDistinct (namesApart_shape hR.args hR.itemNames) _ _).mpr ⟨p, a, ha, rfl, rfl⟩
  rw [rulesOf_map] at h
  rcases h with ⟨pre, x, post, expand, h1, h2, h3, h4, h5⟩ | ⟨h1, h2, h3⟩
  · left
    obtain ⟨pre', l2, e1, e2, e3⟩ := List.map_eq_append_iff.mp h1
    obtain ⟨x', post', e4, e5, e6⟩ := List.map_eq_cons_iff.mp e3
    subst e2 e4 e5 e6
    refine ⟨pre', x', post', expand, e1, h2, h3, ?_, ?_⟩
    · rcases h4 with ⟨g1, g2⟩ | ⟨g1, m, g2, g3⟩ | ⟨g1, g2, u, g3, g4⟩
      · exact .inl ⟨g1, g2⟩
      · refine .inr (.inl ⟨g1, ?_⟩)
        simp only [RRule.wrap, Option.map_eq_some_iff] at g2
        obtain ⟨m', g5, rfl⟩ := g2
        refine ⟨m', a, g5, ha, ?_⟩
        rw [g3]
        simp only [hget]
        rfl
      · refine .inr (.inr ⟨⟨by simpa [RRule.wrap] using g2, g1⟩, u, ?_, g4⟩)
        simp only [Rule.source, RRule.wrap] at g3
        cases e : x'.2.originalKey <;> rw [e] at g3 <;> exact g3
    · intro y hy hm
      exact h5 _ (List.mem_map_of_mem hy) hm
  · right
    refine ⟨?_, ?_, ?_⟩
    · intro y hy hm
      exact h1 _ (List.mem_map_of_mem hy) hm
    · rintro ⟨y, hy, hm⟩
      exact h2 ⟨_, List.mem_map_of_mem hy, hm⟩
    · intro hno
      apply h3
      rintro ⟨z, hz, hm⟩
      obtain ⟨y, hy, rfl⟩ := List.mem_map.mp hz
      exact hno ⟨y, hy, hm⟩

theorem map_empty {α β} (g : α → β) {t : Tree α} {k : Kind} (h : Tree.map g t = .node k .nil) : t = .node k .nil := by
  cases t with
  | leaf a => cases h
  | node k' f =>
    cases f with
    | nil => simp only [Tree.map, Forest.map] at h; cases h; rfl
    | cons => simp [Tree.map, Forest.map] at h

theorem wrapped_ok (hR : R.Ok (pathsOf t)) : R.wrapped.Distinct ∧ NamesApart R.wrapped :=
  ⟨map_distinct _ _ hR.rules, namesApart_shape (map_shape _ _) hR.ruleNames⟩

theorem value_ok (hR : R.Ok (pathsOf t)) : (Tree.map Got.value R.item).Distinct ∧ NamesApart (Tree.map Got.value R.item) ∧
    ∀ kd, Tree.map Got.value R.item = .node kd .nil → ∃ n, kd = .custom n :=
  ⟨map_distinct _ _ hR.item, namesApart_shape (map_shape _ _) hR.itemNames, fun kd h => hR.nonempty kd (map_empty _ h)⟩

end

/-- C86 (restoring with transforms): the result is what the transforms give on the checkpoint, of which all wanted values were loaded; it has the
containers of the item. -/
theorem C86_restore {V D} (C : Codec V D) (hC : Faithful C) (o : Options) (t : Tree V) (ck : Ckpt D) (hk : t.KeysOk) (hn : (paramNames false t).Nodup)
    (ht : SavedApart t) (hs : Saved C o t ck) (R : Request V) (hR : R.Ok (pathsOf t)) (hty : R.Typed) (r : Tree (Got V))
    (h : restoreT C o ck R.fm R.dto (some R.item) (some R.args) R.rules = some r) :
    ∃ T, Loaded C R t T ∧ ∀ p,
      (∀ v, R.item.at_ p = some (.leaf v) → ∃ w, r.at_ p = some w ∧ R.Gives T p (.leaf (.value v)) w) ∧
      (∀ kd f, R.item.at_ p = some (.node kd f) → ∃ f', r.at_ p = some (.node kd f') ∧ f'.keys = f.keys) := by
  obtain ⟨M, hM⟩ := saved_meta C o t ck hC hk hs
  have h0 := restore_eq hM R
  simp only [Request.restore] at h0
  rw [h0] at h
  obtain ⟨T, h1, h2⟩ := Option.bind_eq_some_iff.mp h
  have hsh := (tree_some C ck.params R (meta_distinct hM) h1).1
  have hTd : T.Distinct := by rw [← shape_distinct, hsh, shape_distinct]; exact meta_distinct hM
  have hTn : NamesApart T := namesApart_shape hsh (meta_apart hM ht)
  refine ⟨T, loaded_of_tree hC hM hk hn hR hty h1, fun p => ?_⟩
  obtain ⟨w1, w2⟩ := wrapped_ok hR
  obtain ⟨i1, i2, i3⟩ := value_ok hR
  obtain ⟨h3, h4⟩ := C47_values R.fm R.dto T (Tree.map Got.value R.item) r R.wrapped hTd hTn w1 w2 i1 i2 i3 h2 p
  refine ⟨?_, ?_⟩
  · intro v hv
    obtain ⟨w, h5, h6⟩ := h3 (.value v) (by rw [map_at, hv]; rfl)
    exact ⟨w, h5, gives_of_wrapped hR hv h6⟩
  · intro kd f hf
    obtain ⟨f', h5, h6⟩ := h4 kd (Forest.map Got.value f) (by rw [map_at, hf]; rfl)
    exact ⟨f', h5, by rw [h6, mapF_keys]⟩

/-- C86 (renaming): if no transform has a function, every leaf of the result is a value: that of the checkpoint under the name the transforms
give, restored as it is wanted; or the item's own value, if the checkpoint has none. -/
theorem C86_values {V D} (C : Codec V D) (hC : Faithful C) (o : Options) (t : Tree V) (ck : Ckpt D) (hk : t.KeysOk) (hn : (paramNames false t).Nodup)
    (ht : SavedApart t) (hs : Saved C o t ck) (R : Request V) (hR : R.Ok (pathsOf t)) (hty : R.Typed)
    (hf : ∀ x ∈ R.list, x.2.valueFn = none ∧ x.2.multiFn = none)
    (he : ∀ q kd, t.at_ q = some (.node kd .nil) → ∀ a, ¬ R.Wants (slashName q) a) (r : Tree (Got V))
    (h : restoreT C o ck R.fm R.dto (some R.item) (some R.args) R.rules = some r) (p : List Key) (v : V) (hp : R.item.at_ p = some (.leaf v)) :
    ∃ w, r.at_ p = some (.leaf (.value w)) ∧
      ((∃ q x a, R.Source p (slashName q) ∧ t.at_ q = some (.leaf x) ∧ R.Wants (slashName q) a ∧ ReadsAs C x a w) ∨
        (w = v ∧ ∀ n, R.Source p n → ∀ q ∈ pathsOf t, slashName q ≠ n)) := by
  obtain ⟨T, hT, hr⟩ := C86_restore C hC o t ck hk hn ht hs R hR hty r h
  obtain ⟨w, h1, h2⟩ := (hr p).1 v hp
  obtain ⟨b, hb⟩ := leaf_of_shape hR.args hp
  have key : ∀ n, Holds T n w → R.Source p n → R.Takes p n ∨ R.Carries p n → ∃ w', r.at_ p = some (.leaf (.value w')) ∧
      (∃ q x a, R.Source p (slashName q) ∧ t.at_ q = some (.leaf x) ∧ R.Wants (slashName q) a ∧ ReadsAs C x a w') := by
    rintro n ⟨q', g, h3, h4, rfl⟩ hsrc hw
    obtain ⟨y, hy, e⟩ := hT.only q' g h3
    have hn' : slashName y.1 = n := by rw [← h4, ← e, slash_norm]
    have hW : R.Wants (slashName y.1) b := .inr ⟨p, v, hp, hb, by rw [hn']; exact hw⟩
    obtain ⟨h5, h6, -⟩ := (t.flat_spec true (keysOk_distinct t hk) y.1 y.2).mp hy
    rcases emptyOrLeaf_cases h6 with ⟨x, ex⟩ | ⟨kd, ex⟩
    · rw [ex] at h5
      obtain ⟨g', h7, h8⟩ := hT.values y.1 x h5
      rw [e, h3] at h7
      cases h7
      rcases h8 with ⟨a, w', h9, rfl, h10⟩ | ⟨h9, -⟩
      · exact ⟨w', h1, y.1, x, a, by rw [hn']; exact hsrc, h5, h9, h10⟩
      · exact absurd hW (h9 b)
    · rw [ex] at h5
      exact absurd hW (he y.1 kd h5 b)
  rcases h2 with ⟨pre, x, post, expand, g1, g2, g3, g4, g5⟩ | ⟨g1, g2, g3⟩
  · have hx : x ∈ R.list := by rw [g1]; simp
    have hsrc : ∀ n, n = (if x.2.useFallback then slashName p else x.2.originalKey.elim (slashName p) expand) → R.Source p n :=
      fun n en => .inl ⟨pre, x, post, expand, g1, g2, g3, en, g5⟩
    rcases g4 with ⟨k1, k2⟩ | ⟨-, m, a, k1, -⟩ | ⟨k1, u, k2, k3⟩
    · have hd : R.dto = false := by
        cases e : R.dto with
        | false => rfl
        | true => exact absurd ⟨k1, e⟩ g3
      obtain ⟨w', h3, h4⟩ := key _ k2 (hsrc _ (by rw [k1]; rfl)) (.inr ⟨rfl, by
        refine ⟨fun e => ?_, fun e => ?_⟩
        · rw [hd] at e; cases e
        · exact absurd ⟨x, hx, by rw [g2]; simp, k1⟩ e⟩)
      exact ⟨w', h3, .inl h4⟩
    · rw [(hf x hx).2] at k1; cases k1
    · rw [(hf x hx).1] at k3
      simp only [Option.getD_none, id] at k3
      subst k3
      obtain ⟨w', h3, h4⟩ := key _ k2 (hsrc _ (by rw [k1.2]; rfl)) (.inl ⟨x, hx, k1, expand, g2, rfl⟩)
      exact ⟨w', h3, .inl h4⟩
  · by_cases hm : ∃ y ∈ R.list, R.fm y.1 (slashName p) ≠ none
    · rw [g2 hm] at h1
      refine ⟨v, h1, .inr ⟨rfl, ?_⟩⟩
      rintro n (⟨pre, x, post, expand, k1, k2, k3, -⟩ | ⟨k1, -⟩)
      · exact absurd (g1 x (by rw [k1]; simp) (by rw [k2]; simp)) k3
      · obtain ⟨y, hy, h3⟩ := hm
        exact absurd (k1 y hy) h3
    · have hno : ∀ y ∈ R.list, R.fm y.1 (slashName p) = none := by
        intro y hy
        cases e : R.fm y.1 (slashName p) with
        | none => rfl
        | some z => exact absurd ⟨y, hy, by rw [e]; simp⟩ hm
      rcases g3 hm with ⟨k1, k2⟩ | ⟨k1, k2⟩
      · obtain ⟨w', h3, h4⟩ := key _ k2 (.inr ⟨hno, k1, rfl⟩) (.inr ⟨rfl, by
          refine ⟨fun _ => ?_, fun _ => k1⟩
          rintro ⟨y, hy, h3, -⟩
          exact h3 (hno y hy)⟩)
        exact ⟨w', h3, .inl h4⟩
      · rw [k1] at h1
        refine ⟨v, h1, .inr ⟨rfl, ?_⟩⟩
        rintro n (⟨pre, x, post, expand, j1, j2, -⟩ | ⟨-, j1, rfl⟩) q hq e
        · rw [hno x (by rw [j1]; simp)] at j2; cases j2
        · apply k2
          refine ⟨j1, ?_⟩
          obtain ⟨y, hy, rfl⟩ := List.mem_map.mp hq
          obtain ⟨h5, h6, -⟩ := (t.flat_spec true (keysOk_distinct t hk) y.1 y.2).mp hy
          rcases emptyOrLeaf_cases h6 with ⟨x, ex⟩ | ⟨kd, ex⟩
          · rw [ex] at h5
            obtain ⟨g, h7, -⟩ := hT.values y.1 x h5
            exact ⟨_, _, g, h7, by rw [slash_norm, e], rfl⟩
          · rw [ex] at h5
            obtain ⟨g, h7⟩ := hT.empties y.1 kd h5
            exact ⟨_, _, _, h7, by rw [slash_norm, e], rfl⟩

/-- C86 (what is read): parameters that are not wanted are not read; the checkpoint may have lost them. -/
theorem C86_reads_only_wanted {V D} (C : Codec V D) (hC : Faithful C) (o : Options) (t : Tree V) (ck ck' : Ckpt D) (hk : t.KeysOk)
    (hs : Saved C o t ck) (R : Request V) (hR : R.Ok (pathsOf t)) (hm : ck'.metadata = ck.metadata)
    (hp : ∀ q x a, t.at_ q = some (.leaf x) → R.Wants (slashName q) a → Assoc.get ck'.params (paramName q) = Assoc.get ck.params (paramName q)) :
    restoreT C o ck' R.fm R.dto (some R.item) (some R.args) R.rules = restoreT C o ck R.fm R.dto (some R.item) (some R.args) R.rules := by
  obtain ⟨M, hM⟩ := saved_meta C o t ck hC hk hs
  obtain ⟨m, h1, h2⟩ := hM.read
  have key : R.tree C ck'.params M = R.tree C ck.params M := by
    refine tree_congr C ck'.params R (meta_distinct hM) ck.params ?_
    rintro ⟨q, e⟩ hx
    obtain ⟨h3, h4, -⟩ := (M.flat_spec true (meta_distinct hM) q e).mp hx
    rcases emptyOrLeaf_cases h4 with ⟨e, rfl⟩ | ⟨kd, rfl⟩
    · obtain ⟨y, hy, e1, rfl⟩ := (hM.leaves q e).mp h3
      obtain ⟨h5, h6, -⟩ := (t.flat_spec true (keysOk_distinct t hk) y.1 y.2).mp hy
      simp only [load_leaf, ← e1, plan_norm, strPath_norm]
      cases hpl : R.plan y.1 with
      | none => rfl
      | some a =>
        rcases hR.plan (mem_paths hy) hpl with ⟨b, rfl, hw⟩ | ⟨rfl | ⟨k, rfl⟩, -⟩
        · rcases emptyOrLeaf_cases h6 with ⟨x, ex⟩ | ⟨kd, ex⟩
          · rw [ex] at h5
            have := hp y.1 x b h5 hw
            simp only [paramName] at this
            simp only [readNamed, this]
          · simp only [readNamed, ex, valueOf, typeOf, emptyType_kind, if_true]
        · rfl
        · rfl
    · rfl
  simp only [Request.tree] at key
  simp only [restoreT, hm, h1, h2, Option.bind_eq_bind, Option.bind_some, key]

/-- The transforms matching the leaf `p` of the item can be applied to the saved tree. -/
def Request.Applicable {V} (R : Request V) (t : Tree V) (p : List Key) : Prop :=
  ∀ x ∈ R.list, ∀ expand, R.fm x.1 (slashName p) = some expand →
    (x.2.useFallback = true → R.dto = false → ∃ q ∈ pathsOf t, slashName q = slashName p) ∧
    (x.2.useFallback = false → x.2.multiFn ≠ none → x.2.valueFn = none) ∧
    (x.2.Single → ∃ q ∈ pathsOf t, slashName q = x.2.originalKey.elim (slashName p) expand)

theorem applicable_iff {V D} {C : Codec V D} {R : Request V} {t : Tree V} {T : Tree (Got V)} (hk : t.KeysOk) (hT : Loaded C R t T) (p : List Key) :
    R.Applicable t p ↔ ∀ x ∈ rulesOf R.wrapped, ∀ expand, R.fm x.1 (slashName p) = some expand → x.2.Fine (Holds T) R.dto (slashName p) expand := by
  have hold : ∀ n, (∃ q ∈ pathsOf t, slashName q = n) ↔ ∃ v, Holds T n v := by
    intro n
    constructor
    · rintro ⟨q, hq, rfl⟩
      obtain ⟨y, hy, rfl⟩ := List.mem_map.mp hq
      obtain ⟨h5, h6, -⟩ := (t.flat_spec true (keysOk_distinct t hk) y.1 y.2).mp hy
      rcases emptyOrLeaf_cases h6 with ⟨x, ex⟩ | ⟨kd, ex⟩
      · rw [ex] at h5
        obtain ⟨g, h7, -⟩ := hT.values y.1 x h5
        exact ⟨_, _, g, h7, slash_norm _, rfl⟩
      · rw [ex] at h5
        obtain ⟨g, h7⟩ := hT.empties y.1 kd h5
        exact ⟨_, _, _, h7, slash_norm _, rfl⟩
    · rintro ⟨v, q', g, h1, h2, -⟩
      obtain ⟨y, hy, e⟩ := hT.only q' g h1
      exact ⟨y.1, mem_paths hy, by rw [← h2, ← e, slash_norm]⟩
  rw [rulesOf_map]
  have hone : ∀ (x : Name × RRule V) (expand : Name → Name),
      ((x.2.useFallback = true → R.dto = false → ∃ q ∈ pathsOf t, slashName q = slashName p) ∧
      (x.2.useFallback = false → x.2.multiFn ≠ none → x.2.valueFn = none) ∧
      (x.2.Single → ∃ q ∈ pathsOf t, slashName q = x.2.originalKey.elim (slashName p) expand)) ↔
      (x.2.wrap (toFlatSep ['/'] false R.args)).Fine (Holds T) R.dto (slashName p) expand := by
    rintro ⟨n, ok, fb, vf, mf, ins, rst⟩ expand
    simp only [Rule.Fine, Rule.source, RRule.wrap, RRule.Single, hold]
    cases fb with
    | true => simp
    | false =>
      cases mf with
      | some m => simp
      | none => cases ok <;> simp
  constructor
  · intro h y hy expand he
    obtain ⟨x, hx, rfl⟩ := List.mem_map.mp hy
    exact (hone x expand).mp (h x hx expand he)
  · intro h x hx expand he
    exact (hone x expand).mpr (h _ (List.mem_map_of_mem hx) expand he)

/-- C86 (when it succeeds): if functions of several values declare their inputs and what is wanted can be read as wanted, restoring succeeds
exactly if every matching transform can be applied; otherwise a missing value is reported. -/
theorem C86_succeeds {V D} (C : Codec V D) (hC : Faithful C) (o : Options) (t : Tree V) (ck : Ckpt D) (hk : t.KeysOk) (hn : (paramNames false t).Nodup)
    (ht : SavedApart t) (hs : Saved C o t ck) (R : Request V) (hR : R.Ok (pathsOf t)) (hty : R.Typed)
    (hm : ∀ x ∈ R.list, x.2.multiFn ≠ none → x.2.isRestore = true ∧ x.2.inputs ≠ none)
    (hr : ∀ q x a, t.at_ q = some (.leaf x) → R.Wants (slashName q) a → ∃ v, ReadsAs C x a v) :
    (restoreT C o ck R.fm R.dto (some R.item) (some R.args) R.rules).isSome = true ↔
      ∀ p v, R.item.at_ p = some (.leaf v) → R.Applicable t p := by
  obtain ⟨M, hM⟩ := saved_meta C o t ck hC hk hs
  have htree : (R.tree C ck.params M).isSome = true := by
    apply tree_isSome C ck.params R (meta_distinct hM)
    rintro ⟨q, e⟩ hx
    obtain ⟨h3, h4, -⟩ := (M.flat_spec true (meta_distinct hM) q e).mp hx
    rcases emptyOrLeaf_cases h4 with ⟨e, rfl⟩ | ⟨kd, rfl⟩
    · obtain ⟨y, hy, e1, rfl⟩ := (hM.leaves q e).mp h3
      obtain ⟨h5, h6, -⟩ := (t.flat_spec true (keysOk_distinct t hk) y.1 y.2).mp hy
      simp only [load_leaf, ← e1, plan_norm, strPath_norm]
      obtain ⟨a, hpl⟩ := Option.isSome_iff_exists.mp (hR.plan_isSome hm y.1)
      rw [hpl]
      rcases hR.plan (mem_paths hy) hpl with ⟨b, rfl, hw⟩ | ⟨rfl | ⟨k, rfl⟩, -⟩
      · rcases emptyOrLeaf_cases h6 with ⟨x, ex⟩ | ⟨kd, ex⟩
        · rw [ex] at h5
          rw [ex]
          simp only [Option.isSome_map]
          rw [read_saved hC hM hk hn h5 b (fun ty e => hty _ ty (e ▸ hw)), Option.isSome_map]
          obtain ⟨v, hv⟩ := hr y.1 x b h5 hw
          cases b with
          | none =>
            obtain ⟨s, hs⟩ := Option.isSome_iff_exists.mp (hM.typed _ hy x ex)
            simp only [Option.getD_none, hs, Option.getD_some, (hC x s hs).2, Option.isSome_some]
          | some ty =>
            simp only [Option.getD_some]
            simp only [ReadsAs] at hv
            rw [hv]
            rfl
        · simp only [readNamed, ex, valueOf, typeOf, emptyType_kind, if_true, Option.map_some, Option.isSome_some]
      · rfl
      · simp only [readNamed, Forest.isEmpty, if_true]
        split <;> rfl
    · simp only [Request.load, loadLeaf, Option.isSome_map]
      exact hR.plan_isSome hm q
  obtain ⟨T, hT⟩ := Option.isSome_iff_exists.mp htree
  have hsh := (tree_some C ck.params R (meta_distinct hM) hT).1
  have hTd : T.Distinct := by rw [← shape_distinct, hsh, shape_distinct]; exact meta_distinct hM
  have hTn : NamesApart T := namesApart_shape hsh (meta_apart hM ht)
  have hL := loaded_of_tree hC hM hk hn hR hty hT
  obtain ⟨w1, w2⟩ := wrapped_ok hR
  obtain ⟨i1, i2, i3⟩ := value_ok hR
  have h0 := restore_eq hM R
  simp only [Request.restore, hT, Option.bind_some] at h0
  rw [h0, C47_succeeds R.fm R.dto T (Tree.map Got.value R.item) R.wrapped hTd hTn w1 w2 i1 i2 i3]
  constructor
  · intro h p v hp
    exact (applicable_iff hk hL p).mpr (h p (.value v) (by rw [map_at, hp]; rfl))
  · intro h p a hp
    obtain ⟨v, hv, -⟩ := map_leaf _ hp
    exact (applicable_iff hk hL p).mp (h p v hv)

/-- C86 (finding): where the checkpoint has an empty container (or `None`) and the item a value, the result has the metadata object of the
checkpoint, not the empty container. -/
theorem C86_empty_value_fails {V D} (C : Codec V D) (hC : Faithful C) (o : Options) (t : Tree V) (ck : Ckpt D) (hk : t.KeysOk)
    (hn : (paramNames false t).Nodup) (ht : SavedApart t) (hs : Saved C o t ck) (R : Request V) (hR : R.Ok (pathsOf t)) (hty : R.Typed) (hd : R.dto = true)
    (p q : List Key) (v : V) (kd : Kind) (hp : R.item.at_ p = some (.leaf v)) (hq : t.at_ q = some (.node kd .nil)) (hpq : slashName p = slashName q)
    (hno : ∀ x ∈ R.list, R.fm x.1 (slashName p) = none) (r : Tree (Got V))
    (h : restoreT C o ck R.fm R.dto (some R.item) (some R.args) R.rules = some r) : ∃ e, r.at_ p = some (.leaf (.entry e)) := by
  obtain ⟨T, hT, hr⟩ := C86_restore C hC o t ck hk hn ht hs R hR hty r h
  obtain ⟨w, h1, h2⟩ := (hr p).1 v hp
  obtain ⟨e, he⟩ := hT.empties q kd hq
  have hno' : ¬ ∃ y ∈ R.list, R.fm y.1 (slashName p) ≠ none := fun ⟨y, hy, h3⟩ => h3 (hno y hy)
  rcases h2 with ⟨pre, x, post, expand, g1, g2, -⟩ | ⟨-, -, g3⟩
  · rw [hno x (by rw [g1]; simp)] at g2; cases g2
  · rcases g3 hno' with ⟨-, q', g, k1, k2, rfl⟩ | ⟨-, k2⟩
    · obtain ⟨y, hy, e1⟩ := hT.only q' g k1
      have hx : (q, Tree.node kd .nil) ∈ t.flat true := (t.flat_spec true (keysOk_distinct t hk) q _).mpr ⟨hq, rfl, by simp⟩
      have : y.1 = q := ht y hy _ hx (by rw [← hpq, ← k2, ← e1, slash_norm])
      rw [← e1, this, he] at k1
      cases k1
      exact ⟨e, h1⟩
    · exact absurd ⟨hd, _, _, _, he, by rw [slash_norm, hpq], rfl⟩ k2

end Verif.PyTree
