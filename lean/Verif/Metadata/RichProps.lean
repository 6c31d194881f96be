import Verif.Metadata.Rich
import Verif.Trees.SerializeProps

/-!
# Property C53: rich-type tree metadata
-/

namespace Verif.TreeMetadata

open Verif Verif.Trees

/-! ### Specification -/

mutual
/-- A tree without the names of its named tuple classes, which Python's equality of named tuples ignores. -/
def anon {α} : Tree α → Tree α
  | .leaf a => .leaf a
  | .node (.named _) f => .node (.named []) (anonAll f)
  | .node k f => .node k (anonAll f)
def anonAll {α} : Forest α → Forest α
  | .nil => .nil
  | .cons k t r => .cons k (anon t) (anonAll r)
end

/-- The kind of node and the keys of its children: what a dictionary with string keys, a list, a tuple or a named tuple has.
Inside a tuple or named tuple (`inner`), and for tuples and named tuples, the node is not empty. -/
def NodeOk (c : Classes) (inner : Bool) : Kind → List Key → Prop
  | .dict, ks => (∀ k ∈ ks, ∃ n, k = .dict (.str n)) ∧ ks.Nodup ∧ (inner = true → ks ≠ [])
  | .list, ks => SeqFrom Key.seq 0 ks ∧ (inner = true → ks ≠ [])
  | .tuple, ks => SeqFrom Key.seq 0 ks ∧ ks ≠ []
  | .named ty, ks => (∀ k ∈ ks, ∃ n, k = .attr n) ∧ ks ≠ [] ∧
      (newClass c (c.moduleOf ty) (c.qualnameOf ty) (ks.map Key.str)).isSome = true
  | .none, ks => ks = [] ∧ inner = false
  | .custom _, _ => False

/-- Is the inside of such a node written by `_value_metadata_tree_for_json_dumps`? -/
def innerOf (inner : Bool) : Kind → Bool
  | .tuple => true
  | .named _ => true
  | _ => inner

mutual
/-- A value metadata tree built from dictionaries with string keys, lists, tuples and named tuples. -/
def RichTree (c : Classes) (inner : Bool) : Py → Prop
  | .leaf (.entry _) => True
  | .leaf _ => False
  | .node k f => NodeOk c inner k f.keys ∧ RichForest c (innerOf inner k) f
def RichForest (c : Classes) (inner : Bool) : Forest P → Prop
  | .nil => True
  | .cons _ t r => RichTree c inner t ∧ RichForest c inner r
end

/-! ### The result, with the new classes -/

mutual
def view (c : Classes) : Py → Py
  | .leaf a => .leaf a
  | .node (.named ty) f => .node (.named ((newClass c (c.moduleOf ty) (c.qualnameOf ty) (f.keys.map Key.str)).getD [])) (viewAll c f)
  | .node k f => .node k (viewAll c f)
def viewAll (c : Classes) : Forest P → Forest P
  | .nil => .nil
  | .cons k t r => .cons k (view c t) (viewAll c r)
end

mutual
theorem view_anon (c : Classes) : ∀ t : Py, anon (view c t) = anon t
  | .leaf a => rfl
  | .node k f => by cases k <;> simp [view, anon, viewAll_anon c f]
theorem viewAll_anon (c : Classes) : ∀ f : Forest P, anonAll (viewAll c f) = anonAll f
  | .nil => rfl
  | .cons k t r => by simp [viewAll, anonAll, view_anon c t, viewAll_anon c r]
end

theorem viewAll_keys (c : Classes) : ∀ f : Forest P, (viewAll c f).keys = f.keys
  | .nil => rfl
  | .cons k t r => by simp [viewAll, Forest.keys, viewAll_keys c r]

theorem viewAll_get (c : Classes) : ∀ (f : Forest P) k, (viewAll c f).get k = (f.get k).map (view c)
  | .nil, k => rfl
  | .cons k' t r, k => by
    simp only [viewAll, Forest.get]
    split
    · rfl
    · exact viewAll_get c r k

theorem RichForest.get {c inner} : ∀ {f : Forest P} {k t}, RichForest c inner f → f.get k = some t → RichTree c inner t
  | .nil, k, t, _, h => by simp [Forest.get] at h
  | .cons k' t' r, k, t, h, hg => by
    simp only [Forest.get] at hg
    split at hg
    · cases hg; exact h.1
    · exact RichForest.get h.2 hg

theorem view_ne_str {c inner} {t : Py} (h : RichTree c inner t) (s : Name) : view c t ≠ pyStr s := by
  cases t with
  | leaf a => cases a <;> simp [RichTree, view, pyStr] at h ⊢
  | node k f => cases k <;> simp [view, pyStr]

mutual
theorem hook_view {c inner} : ∀ {t : Py}, RichTree c inner t → hook c (view c t) = some (view c t)
  | .leaf a, _ => by simp [view, hook]
  | .node k f, h => by
    cases k with
    | dict =>
      have ha := hookAll_view h.2
      simp only [view, hook, viewAll_get]
      cases hg : f.get (fld kCategory) with
      | none => simp [ha]
      | some t =>
        have ht := RichForest.get h.2 hg
        simp [view_ne_str ht, ha]
    | _ => simp [view, hook]
theorem hookAll_view {c inner} : ∀ {f : Forest P}, RichForest c inner f → hookAll c (viewAll c f) = some (viewAll c f)
  | .nil, _ => rfl
  | .cons k t r, h => by simp [viewAll, hookAll, hook_view h.1, hookAll_view h.2]
end

/-! ### Single objects -/

theorem foldl_put_forest : ∀ (f g : Forest P), f.keys.Nodup → (∀ k ∈ f.keys, g.get k = none) →
    f.toList.foldl (fun g x => g.put x.1 x.2) g = g.append f
  | .nil, g, _, _ => by simp [Forest.toList, Forest.append_nil]
  | .cons k t r, g, hn, hg => by
    simp only [Forest.keys, List.nodup_cons] at hn
    simp only [Forest.toList, List.foldl_cons]
    rw [foldl_put_forest r _ hn.2, Forest.put_new g k t (hg k (by simp [Forest.keys])), Forest.append_assoc]
    · rfl
    · intro k' hk'
      rw [Forest.put_get_ne _ _ (by rintro rfl; exact hn.1 hk')]
      exact hg k' (by simp [Forest.keys, hk'])

theorem dedupe_nodup {f : Forest P} (h : f.keys.Nodup) : dedupe f = f := by
  rw [dedupe, foldl_put_forest f .nil h (by simp [Forest.get])]
  rfl

theorem loads_ints (c : Classes) : ∀ (l : List Int) (i : Nat),
    loadsAll c (enumFrom i (l.map fun i => Tree.leaf (P.int i))) = some (enumFrom i (l.map fun i => Tree.leaf (P.int i)))
  | [], i => rfl
  | a :: l, i => by simp [enumFrom, loadsAll, loads, loads_ints c l (i + 1)]

theorem ints_enum : ∀ (l : List Int) (i : Nat), Forest.ints (enumFrom i (l.map fun i => Tree.leaf (P.int i))) = some l
  | [], i => rfl
  | a :: l, i => by simp [enumFrom, Forest.ints, ints_enum l (i + 1)]

theorem fromJson_toJson (rich : Bool) (v : Value) : Value.fromJson rich v.toJson = some { v with type := overrideType rich v.type } := by
  obtain ⟨t, s, sh⟩ := v
  cases sh with
  | none => simp [Value.toJson, dictNode, Forest.ofList, Value.fromJson, Forest.get, fld, kValueType, kSkip, kShape, pyStr]
  | some l =>
    simp [Value.toJson, dictNode, Forest.ofList, Value.fromJson, Forest.get, fld, kValueType, kSkip, kShape, pyStr, listNode, ints_enum]

theorem loads_toJson (c : Classes) (v : Value) : loads c v.toJson = some v.toJson := by
  obtain ⟨t, s, sh⟩ := v
  cases sh with
  | none =>
    simp [Value.toJson, dictNode, Forest.ofList, loads, loadsAll, pyStr]
    rw [dedupe_nodup (by simp [Forest.keys, kValueType, kSkip])]
    simp [hook, hookAll, Forest.get, fld, kValueType, kSkip, kCategory]
  | some l =>
    simp [Value.toJson, dictNode, Forest.ofList, loads, loadsAll, pyStr, listNode, loads_ints]
    rw [dedupe_nodup (by simp [Forest.keys, kValueType, kSkip, kShape])]
    simp [hook, hookAll, Forest.get, fld, kValueType, kSkip, kCategory, kShape]

theorem loads_tagged (c : Classes) (v : Value) : loads c v.tagged = some (.leaf (.entry v)) := by
  simp only [Value.tagged, dictNode, List.map_cons, List.map_nil, Forest.ofList, loads, loadsAll, pyStr, loads_toJson]
  simp only [Option.bind_eq_bind, Option.bind_some, Option.pure_def]
  rw [dedupe_nodup (by simp [Forest.keys, kCategory, kClazz, kData])]
  have := fromJson_toJson true v
  simp [overrideType] at this
  simp [hook, Forest.get, fld, kCategory, kClazz, kData, pyStr, vCustom, vEntry, this]

/-! ### Trees -/

theorem seq_nodup : ∀ (i : Nat) (l : List Key), SeqFrom Key.seq i l → l.Nodup
  | _, [], _ => by simp
  | i, k :: l, h => by
    refine List.nodup_cons.mpr ⟨?_, seq_nodup (i + 1) l h.2⟩
    intro hm
    obtain ⟨j, h1, -, h3⟩ := seqFrom_mem (i + 1) l h.2 k hm
    rw [h.1] at h3
    cases h3
    omega

theorem ne_nil_of_keys {f : Forest P} (h : f.keys ≠ []) : ∃ k t r, f = .cons k t r := by
  cases f with
  | nil => exact absurd rfl h
  | cons k t r => exact ⟨k, t, r, rfl⟩

/-- The pairs of a named tuple. -/
def pairsOf (c : Classes) : Forest P → List (Name × Py)
  | .nil => []
  | .cons k t r => (k.str, view c t) :: pairsOf c r

theorem pairsOf_fst (c : Classes) : ∀ f : Forest P, (pairsOf c f).map (·.1) = f.keys.map Key.str
  | .nil => rfl
  | .cons k t r => by simp [pairsOf, Forest.keys, pairsOf_fst c r]

theorem namedForest_pairs (c : Classes) : ∀ f : Forest P, (∀ k ∈ f.keys, ∃ n, k = .attr n) → namedForest (pairsOf c f) = viewAll c f
  | .nil, _ => rfl
  | .cons k t r, h => by
    obtain ⟨n, rfl⟩ := h k (by simp [Forest.keys])
    simp only [pairsOf, namedForest, viewAll]
    rw [namedForest_pairs c r (fun k hk => h k (by simp [Forest.keys, hk]))]
    rfl

theorem loads_pair {c} {t' : Py} {t : Py} (ht : RichTree c true t) (h : loads c t' = some (view c t)) (n : Name) :
    ∃ g, loads c (dictNode [(kKey, pyStr n), (kValue, t')]) = some g ∧ hookPair c g = some (n, view c t) := by
  have hv := hook_view ht
  refine ⟨dictNode [(kKey, pyStr n), (kValue, view c t)], ?_, ?_⟩
  · simp only [dictNode, List.map_cons, List.map_nil, Forest.ofList, loads, loadsAll, pyStr, h]
    simp only [Option.bind_eq_bind, Option.bind_some, Option.pure_def]
    rw [dedupe_nodup (by simp [Forest.keys, kKey, kValue])]
    simp [hook, hookAll, Forest.get, fld, kCategory, kKey, kValue, hv]
  · simp [dictNode, Forest.ofList, hookPair, hookAt, Forest.get, fld, kKey, kValue, pyStr, hv]

mutual
theorem loads_dumpObj {c} : ∀ (t : Py), RichTree c true t → ∃ j, dumpObj c t = some j ∧ loads c j = some (view c t)
  | .leaf a, h => by
    cases a with
    | entry v => exact ⟨v.tagged, rfl, loads_tagged c v⟩
    | _ => simp [RichTree] at h
  | .node k f, h => by
    obtain ⟨hk, hf⟩ := h
    cases k with
    | custom ty => exact absurd hk (by simp [NodeOk])
    | none => exact absurd hk.2 (by simp)
    | dict =>
      obtain ⟨h1, h2, h3⟩ := hk
      obtain ⟨k, t, r, rfl⟩ := ne_nil_of_keys (h3 rfl)
      obtain ⟨g, e1, e2⟩ := loads_fields _ hf h1
      refine ⟨.node .dict g, by rw [dumpObj, e1]; rfl; simp, ?_⟩
      rw [loads, e2, Option.bind_some, dedupe_nodup (by rw [viewAll_keys]; exact h2)]
      exact hook_view (t := .node .dict (.cons k t r)) ⟨⟨h1, h2, h3⟩, hf⟩
    | list =>
      obtain ⟨h1, h2⟩ := hk
      obtain ⟨k, t, r, rfl⟩ := ne_nil_of_keys (h2 rfl)
      obtain ⟨g, e1, e2⟩ := loads_items _ 0 hf h1
      refine ⟨.node .list g, by rw [dumpObj, e1]; rfl; simp, ?_⟩
      simp [loads, e2, view]
    | tuple =>
      obtain ⟨h1, h2⟩ := hk
      obtain ⟨k, t, r, rfl⟩ := ne_nil_of_keys h2
      obtain ⟨g, e1, e2⟩ := loads_items _ 0 hf h1
      refine ⟨_, by rw [dumpObj, e1]; rfl; simp, ?_⟩
      simp only [dictNode, List.map_cons, List.map_nil, Forest.ofList, loads, loadsAll, pyStr, e2]
      simp only [Option.map_some, Option.bind_eq_bind, Option.bind_some, Option.pure_def]
      rw [dedupe_nodup (by simp [Forest.keys, kCategory, kClazz, kEntries])]
      have := hookAll_view hf
      simp [hook, Forest.get, fld, kCategory, kClazz, kEntries, pyStr, vCustom, vEntry, vTuple, hookItemsAt, hookItems, this, view]
    | named ty =>
      obtain ⟨h1, h2, h3⟩ := hk
      obtain ⟨k, t, r, rfl⟩ := ne_nil_of_keys h2
      obtain ⟨g, g', e1, e2, e3⟩ := loads_pairs _ 0 hf
      refine ⟨_, by rw [dumpObj, e1]; rfl; simp, ?_⟩
      simp only [dictNode, List.map_cons, List.map_nil, Forest.ofList, loads, loadsAll, pyStr, e2]
      simp only [Option.map_some, Option.bind_eq_bind, Option.bind_some, Option.pure_def]
      rw [dedupe_nodup (by simp [Forest.keys, kCategory, kClazz, kEntries, kModule])]
      obtain ⟨cls, hc⟩ := Option.isSome_iff_exists.mp h3
      simp [hook, Forest.get, fld, kCategory, kClazz, kEntries, kModule, pyStr, vCustom, vNamed, hookPairsAt, hookPairs, e3, view,
        pairsOf_fst, hc, namedForest_pairs c _ h1]
theorem loads_items {c} : ∀ (f : Forest P) (i : Nat), RichForest c true f → SeqFrom Key.seq i f.keys →
    ∃ g, dumpItems c i f = some g ∧ loadsAll c g = some (viewAll c f)
  | .nil, i, _, _ => ⟨.nil, rfl, rfl⟩
  | .cons k t r, i, h, hs => by
    obtain ⟨j, a1, a2⟩ := loads_dumpObj t h.1
    obtain ⟨g, b1, b2⟩ := loads_items r (i + 1) h.2 hs.2
    refine ⟨.cons (.seq i) j g, by simp [dumpItems, a1, b1], ?_⟩
    have : k = .seq i := hs.1
    simp [loadsAll, a2, b2, viewAll, this]
theorem loads_fields {c} : ∀ (f : Forest P), RichForest c true f → (∀ k ∈ f.keys, ∃ n, k = .dict (.str n)) →
    ∃ g, dumpFields c f = some g ∧ loadsAll c g = some (viewAll c f)
  | .nil, _, _ => ⟨.nil, rfl, rfl⟩
  | .cons k t r, h, hs => by
    obtain ⟨j, a1, a2⟩ := loads_dumpObj t h.1
    obtain ⟨g, b1, b2⟩ := loads_fields r h.2 (fun k hk => hs k (by simp [Forest.keys, hk]))
    obtain ⟨n, rfl⟩ := hs k (by simp [Forest.keys])
    refine ⟨.cons (fld n) j g, by simp [dumpFields, a1, b1, Key.str, Key.name, Atom.toStr], ?_⟩
    simp [loadsAll, a2, b2, viewAll, fld]
theorem loads_pairs {c} : ∀ (f : Forest P) (i : Nat), RichForest c true f →
    ∃ g g', dumpPairs c i f = some g ∧ loadsAll c g = some g' ∧ hookPairList c g' = some (pairsOf c f)
  | .nil, i, _ => ⟨.nil, .nil, rfl, rfl, rfl⟩
  | .cons k t r, i, h => by
    obtain ⟨j, a1, a2⟩ := loads_dumpObj t h.1
    obtain ⟨g, g', b1, b2, b3⟩ := loads_pairs r (i + 1) h.2
    obtain ⟨x, c1, c2⟩ := loads_pair h.1 a2 k.str
    refine ⟨.cons (.seq i) (dictNode [(kKey, pyStr k.str), (kValue, j)]) g, .cons (.seq i) x g', by simp [dumpPairs, a1, b1], ?_, ?_⟩
    · simp [loadsAll, c1, b2]
    · simp [hookPairList, c2, b3, pairsOf]
end

mutual
theorem loads_dump {c} : ∀ (t : Py), RichTree c false t → ∃ j, dump c t = some j ∧ loads c j = some (view c t)
  | .leaf a, h => by
    cases a with
    | entry v => exact ⟨v.tagged, rfl, loads_tagged c v⟩
    | _ => simp [RichTree] at h
  | .node k f, h => by
    obtain ⟨hk, hf⟩ := h
    cases k with
    | custom ty => exact absurd hk (by simp [NodeOk])
    | none =>
      have : f = .nil := by
        cases f with
        | nil => rfl
        | cons => simp [NodeOk, Forest.keys] at hk
      subst this
      exact ⟨.node .none .nil, rfl, rfl⟩
    | dict =>
      obtain ⟨h1, h2, h3⟩ := hk
      obtain ⟨g, e1, e2⟩ := loads_dict f hf h1
      refine ⟨.node .dict g, by rw [dump, e1]; rfl, ?_⟩
      rw [loads, e2, Option.bind_some, dedupe_nodup (by rw [viewAll_keys]; exact h2)]
      exact hook_view (t := .node .dict f) ⟨⟨h1, h2, h3⟩, hf⟩
    | list =>
      obtain ⟨h1, h2⟩ := hk
      obtain ⟨g, e1, e2⟩ := loads_list f 0 hf h1
      refine ⟨.node .list g, by rw [dump, e1]; rfl, ?_⟩
      simp [loads, e2, view]
    | tuple => exact loads_dumpObj (.node .tuple f) ⟨hk, hf⟩
    | named ty => exact loads_dumpObj (.node (.named ty) f) ⟨hk, hf⟩
theorem loads_dict {c} : ∀ (f : Forest P), RichForest c false f → (∀ k ∈ f.keys, ∃ n, k = .dict (.str n)) →
    ∃ g, dumpDict c f = some g ∧ loadsAll c g = some (viewAll c f)
  | .nil, _, _ => ⟨.nil, rfl, rfl⟩
  | .cons k t r, h, hs => by
    obtain ⟨j, a1, a2⟩ := loads_dump t h.1
    obtain ⟨g, b1, b2⟩ := loads_dict r h.2 (fun k hk => hs k (by simp [Forest.keys, hk]))
    obtain ⟨n, rfl⟩ := hs k (by simp [Forest.keys])
    refine ⟨.cons (fld n) j g, by simp [dumpDict, a1, b1, Key.str, Key.name, Atom.toStr], ?_⟩
    simp [loadsAll, a2, b2, viewAll, fld]
theorem loads_list {c} : ∀ (f : Forest P) (i : Nat), RichForest c false f → SeqFrom Key.seq i f.keys →
    ∃ g, dumpList c i f = some g ∧ loadsAll c g = some (viewAll c f)
  | .nil, i, _, _ => ⟨.nil, rfl, rfl⟩
  | .cons k t r, i, h, hs => by
    obtain ⟨j, a1, a2⟩ := loads_dump t h.1
    obtain ⟨g, b1, b2⟩ := loads_list r (i + 1) h.2 hs.2
    refine ⟨.cons (.seq i) j g, by simp [dumpList, a1, b1], ?_⟩
    have : k = .seq i := hs.1
    simp [loadsAll, a2, b2, viewAll, this]
end

/-- C53: a value metadata tree built from dictionaries with arbitrary string keys, lists, tuples and named tuples is written, and
reading the JSON gives the same tree: the same nodes, keys in the same order, and entries; only the classes of named tuples
are new ones, which Python's equality ignores. -/
theorem C53_round_trip (c : Classes) (t : Py) (h : RichTree c false t) :
    ∃ j r, dump c t = some j ∧ loads c j = some r ∧ anon r = anon t := by
  obtain ⟨j, h1, h2⟩ := loads_dump t h
  exact ⟨j, view c t, h1, h2, view_anon c t⟩

theorem hook_single (c : Classes) (n : Name) (v : Value) :
    hook c (.node .dict (.cons (fld n) (.leaf (.entry v)) .nil)) = some (dictNode [(n, .leaf (.entry v))]) :=
  hook_view (c := c) (inner := false) (t := dictNode [(n, .leaf (.entry v))])
    ⟨⟨by simp [Forest.keys, Forest.ofList], by simp [Forest.keys, Forest.ofList], by simp⟩, by simp [RichForest, RichTree, Forest.ofList]⟩

/-- C53 (failure): integer keys come back as strings. -/
theorem C53_integer_key_fails (c : Classes) (i : Int) (v : Value) :
    (dump c (.node .dict (.cons (.dict (.int i)) (.leaf (.entry v)) .nil))).bind (loads c) =
      some (dictNode [((Atom.int i).toStr, .leaf (.entry v))]) := by
  have h := loads_tagged c v
  simp only [dump, dumpDict, dumpObj]
  simp only [Option.bind_eq_bind, Option.bind_some, Option.pure_def, Option.map_some, loads, loadsAll, h]
  rw [dedupe_nodup (by simp [Forest.keys])]
  exact hook_single c _ v

/-- C53 (failure): of two keys that are the same as strings, one entry is lost. -/
theorem C53_equal_keys_fails (c : Classes) (a b : Value) :
    (dump c (.node .dict (.cons (.dict (.int 1)) (.leaf (.entry a)) (.cons (.dict (.str ['1'])) (.leaf (.entry b)) .nil)))).bind (loads c) =
      some (dictNode [(['1'], .leaf (.entry b))]) := by
  have ha := loads_tagged c a
  have hb := loads_tagged c b
  have e1 : (Key.dict (.int 1)).str = ['1'] := by
    simp only [Key.str, Key.name, Atom.toStr, NameFormat.showInt]
    rw [if_neg (by decide), show (1 : Int).natAbs = 1 from rfl, NameFormat.dec, if_pos (by decide)]
    rfl
  have e2 : (Key.dict (.str ['1'])).str = ['1'] := rfl
  simp only [dump, dumpDict, dumpObj, e1, e2]
  simp only [Option.bind_eq_bind, Option.bind_some, Option.pure_def, Option.map_some, loads, loadsAll, ha, hb]
  simp [dedupe, Forest.toList, Forest.put, hook, hookAll, Forest.get, fld, kCategory, dictNode, Forest.ofList]

/-- C53 (failure): a named tuple whose class cannot be created again from its names is written but cannot be read.  A class
defined inside a function has `<locals>` in its qualified name, so it is such a class. -/
theorem C53_local_class_fails (c : Classes) (hi : ∀ s : Name, '<' ∈ s → c.ident s = false) (ty : Name) (f : Forest P)
    (hq : '<' ∈ c.qualnameOf ty) (hf : RichForest c true f) (hne : f ≠ .nil) :
    ∃ j, dump c (.node (.named ty) f) = some j ∧ loads c j = none := by
  cases f with
  | nil => exact absurd rfl hne
  | cons k t r =>
    obtain ⟨g, g', e1, e2, e3⟩ := loads_pairs _ 0 hf
    refine ⟨_, by rw [dump, dumpObj, e1]; rfl; all_goals simp, ?_⟩
    simp only [dictNode, List.map_cons, List.map_nil, Forest.ofList, loads, loadsAll, pyStr, e2]
    simp only [Option.map_some, Option.bind_eq_bind, Option.bind_some, Option.pure_def]
    rw [dedupe_nodup (by simp [Forest.keys, kCategory, kClazz, kEntries, kModule])]
    have hn : ∀ l, newClass c (c.moduleOf ty) (c.qualnameOf ty) l = none := by
      intro l
      simp only [newClass]
      rw [hi]
      · simp
      · refine List.mem_map.mpr ⟨'<', ?_, rfl⟩
        simp [hq]
    simp [hook, Forest.get, fld, kCategory, kClazz, kEntries, kModule, pyStr, vCustom, vNamed, hookPairsAt, hookPairs, e3, hn]

/-- C53 (failure): an empty tuple, or any empty container inside a tuple, is refused, although an empty dictionary or list
inside dictionaries and lists is accepted. -/
theorem C53_empty_fails (c : Classes) (n : Name) (kd : Kind) :
    dump c (dictNode [(n, .node .tuple .nil)]) = none ∧
    dump c (dictNode [(n, .node .dict .nil)]) = some (dictNode [(n, .node .dict .nil)]) ∧
    dump c (.node .tuple (.cons (.seq 0) (.node kd .nil) .nil)) = none := by
  refine ⟨?_, ?_, ?_⟩
  · simp [dictNode, Forest.ofList, dump, dumpDict, dumpObj]
  · simp [dictNode, Forest.ofList, dump, dumpDict, Key.str, Key.name, Atom.toStr, fld]
  · simp [dump, dumpItems, dumpObj]

/-- C53 (the other container classes): a registered class comes back as a dictionary. -/
theorem C53_custom_class_fails (c : Classes) (ty n : Name) (v : Value) :
    (dump c (.node (.custom ty) (.cons (.attr n) (.leaf (.entry v)) .nil))).bind (loads c) = some (dictNode [(n, .leaf (.entry v))]) := by
  have h := loads_tagged c v
  simp only [dump, dumpObj, dumpFields]
  simp only [Option.bind_eq_bind, Option.bind_some, Option.pure_def, Option.map_some, loads, loadsAll, h]
  rw [dedupe_nodup (by simp [Forest.keys])]
  exact hook_single c _ v

/-! ### Examples -/

def richClasses : Classes := ⟨fun _ => ['m'], fun ty => ty, fun s => !s.contains '<'⟩

/-- A tree whose keys are the markers of the format, with a tuple and a named tuple. -/
def richExample : Py :=
  dictNode [(kCategory, .leaf (.entry ⟨vCustom, false, none⟩)), (kClazz, listNode [.leaf (.entry ⟨['a'], true, some [2, 3]⟩)]),
    (kEntries, .node .tuple (.cons (.seq 0) (.node (.named ['M']) (.cons (.attr ['x']) (.leaf (.entry ⟨['b'], false, none⟩)) .nil)) .nil)),
    (kData, .node .dict .nil)]

example : RichTree richClasses false richExample := by
  refine ⟨⟨?_, ?_, ?_⟩, trivial, ?_, ?_, ?_, trivial⟩
  · intro k hk
    simp [Forest.ofList, Forest.keys] at hk
    rcases hk with rfl | rfl | rfl | rfl <;> exact ⟨_, rfl⟩
  · simp [Forest.ofList, Forest.keys, kCategory, kClazz, kEntries, kData]
  · simp
  · simp [listNode, enumFrom, RichTree, RichForest, NodeOk, Forest.keys, SeqFrom]
  · simp only [RichTree, RichForest, NodeOk, Forest.keys, SeqFrom, richClasses, newClass]
    simp [NameFormat.dec, NameFormat.digit, Key.str, Key.name, Atom.toStr]
  · simp [RichTree, RichForest, NodeOk, Forest.keys, innerOf]

example : richClasses.ident ['f', '<', 'M'] = false := by decide

end Verif.TreeMetadata
