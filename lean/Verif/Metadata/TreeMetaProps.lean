import Verif.Metadata.TreeMeta
import Verif.Metadata.RichProps

/-!
# Properties C51 (JSON), C52, C57: tree metadata
-/

namespace Verif.TreeMetadata

open Verif Verif.Trees

/-! ### Entries and JSON -/

theorem keyType_json (t : KeyType) : KeyType.fromJson t.toJson = some t := by cases t <;> rfl

theorem nestedKey_json (k : NestedKey) : NestedKey.fromJson k.toJson = some k := by
  simp [NestedKey.toJson, dictNode, Forest.ofList, NestedKey.fromJson, Forest.get, fld, kKeyName, kKeyType, pyStr, keyType_json]

theorem keys_json : ∀ (l : List NestedKey) (i : Nat), Forest.mapM NestedKey.fromJson (enumFrom i (l.map NestedKey.toJson)) = some l
  | [], i => rfl
  | k :: l, i => by simp [enumFrom, Forest.mapM, nestedKey_json, keys_json l (i + 1)]

/-- An entry as it is read back: an empty named tuple is recorded as `None`. -/
def Entry.legacy (e : Entry) : Entry :=
  if e.value.type = tNamedTuple then { e with value := { e.value with type := tNone } } else e

theorem entry_json (e : Entry) : Entry.fromJson e.keypath e.toJson = some e.legacy := by
  have h := fromJson_toJson false e.value
  simp [Entry.toJson, dictNode, Forest.ofList, Entry.fromJson, Forest.get, fld, kKeyMeta, kValueMeta, listNode, keys_json, h, Entry.legacy,
    overrideType]
  split <;> simp_all

theorem legacy_keypath (e : Entry) : e.legacy.keypath = e.keypath := by
  simp only [Entry.legacy]; split <;> rfl

/-- The JSON dictionary of a list of entries. -/
def jsonOf : List Entry → Forest P
  | [] => .nil
  | e :: l => .cons (fld e.keypath) e.toJson (jsonOf l)

theorem jsonOf_keys : ∀ l : List Entry, (jsonOf l).keys = l.map fun e => fld e.keypath
  | [] => rfl
  | e :: l => by simp [jsonOf, Forest.keys, jsonOf_keys l]

theorem fld_inj {a b : Name} : fld a = fld b ↔ a = b := by simp [fld]

theorem jsonOf_append : ∀ l m : List Entry, jsonOf (l ++ m) = (jsonOf l).append (jsonOf m)
  | [], m => rfl
  | e :: l, m => by simp [jsonOf, Forest.append, jsonOf_append l m]

theorem entriesOf_jsonOf : ∀ l : List Entry, entriesOf (jsonOf l) = some (l.map Entry.legacy)
  | [] => rfl
  | e :: l => by
    have : Entry.fromJson (fld e.keypath).str e.toJson = some e.legacy := entry_json e
    simp [jsonOf, entriesOf, this, entriesOf_jsonOf l]

/-- `d[e.keypath] = e` on a list of entries. -/
def putEntry (l : List Entry) (e : Entry) : List Entry :=
  match l with
  | [] => [e]
  | x :: l => if x.keypath = e.keypath then e :: l else x :: putEntry l e

theorem put_jsonOf : ∀ (l : List Entry) (e : Entry), (jsonOf l).put (fld e.keypath) e.toJson = jsonOf (putEntry l e)
  | [], e => rfl
  | x :: l, e => by
    simp only [jsonOf, Forest.put, putEntry, fld_inj]
    split
    · next h => simp [jsonOf, h]
    · simp [jsonOf, put_jsonOf l e]

theorem foldl_jsonOf : ∀ (l acc : List Entry), l.foldl (fun f e => f.put (fld e.keypath) e.toJson) (jsonOf acc) = jsonOf (l.foldl putEntry acc)
  | [], acc => rfl
  | e :: l, acc => by simp only [List.foldl_cons, put_jsonOf, foldl_jsonOf l]

theorem entriesJson_eq (l : List Entry) : entriesJson l = jsonOf (l.foldl putEntry []) := foldl_jsonOf l []

theorem putEntry_new : ∀ (l : List Entry) (e : Entry), e.keypath ∉ l.map (·.keypath) → putEntry l e = l ++ [e]
  | [], e, _ => rfl
  | x :: l, e, h => by
    simp only [List.map_cons, List.mem_cons, not_or] at h
    simp [putEntry, Ne.symm h.1, putEntry_new l e h.2]

theorem foldl_putEntry_nodup : ∀ (l acc : List Entry), (l.map (·.keypath)).Nodup → (∀ e ∈ l, e.keypath ∉ acc.map (·.keypath)) →
    l.foldl putEntry acc = acc ++ l
  | [], acc, _, _ => by simp
  | e :: l, acc, hn, ha => by
    simp only [List.map_cons, List.nodup_cons] at hn
    rw [List.foldl_cons, putEntry_new acc e (ha e (by simp)), foldl_putEntry_nodup l _ hn.2]
    · simp
    · intro x hx
      simp only [List.map_append, List.mem_append, not_or]
      refine ⟨ha x (by simp [hx]), ?_⟩
      simp only [List.map_cons, List.map_nil, List.mem_singleton]
      intro e'
      exact hn.1 (by rw [← e']; exact List.mem_map_of_mem hx)

theorem fromJson_base (c : Classes) (rich : Bool) (m : TreeMeta) (es : Forest P) (l : List Entry) (hl : entriesOf es = some l) (j : Option Py)
    (tree : Option Py) (hj : (match rich, j with | true, some j => (loads c j).map some | _, _ => some none) = some tree) :
    TreeMeta.fromJson c rich (dictNode ([(kTree, .node .dict es), (kOcdbt, ocdbtJson m.ocdbt), (kZarr3, .leaf (.bool m.zarr3)),
      (kStore, .leaf (.bool m.store)), (kCustom, m.custom)] ++ (match j with | some j => [(kRichTree, j)] | none => []))) =
      some ⟨l, m.ocdbt, m.zarr3, m.custom, m.store, rich, tree⟩ := by
  obtain ⟨e, oc, z, cu, st, ri, rt⟩ := m
  cases j with
  | none =>
    rcases oc with _ | b <;> cases rich <;>
    simp [dictNode, Forest.ofList, TreeMeta.fromJson, Forest.get, fld, kTree, kOcdbt, kZarr3, kStore, kCustom, kRichTree, ocdbtJson, hl,
      Tree.pyNone] at hj ⊢ <;> exact hj
  | some j =>
    rcases oc with _ | b <;> cases rich <;>
    simp [dictNode, Forest.ofList, TreeMeta.fromJson, Forest.get, fld, kTree, kOcdbt, kZarr3, kStore, kCustom, kRichTree, ocdbtJson, hl,
      Tree.pyNone] at hj ⊢ <;> first | exact hj | (obtain ⟨a, h1, rfl⟩ := hj; simp [h1])

/-- C51 (JSON): metadata whose entries have different key paths is written, and read back gives the same entries in the same order, the same flags and the
same custom metadata; with rich types the value metadata tree is the same too. -/
theorem C51_json_round_trip (c : Classes) (m : TreeMeta) (hn : (m.entries.map (·.keypath)).Nodup)
    (ht : ∀ e ∈ m.entries, e.value.type ≠ tNamedTuple) (hr : ∀ t, m.rich = true → m.richTree = some t → RichTree c false t) :
    ∃ j r, m.toJson c = some j ∧ TreeMeta.fromJson c m.rich j = some r ∧
      r.entries = m.entries ∧ r.ocdbt = m.ocdbt ∧ r.zarr3 = m.zarr3 ∧ r.custom = m.custom ∧ r.store = m.store ∧ r.rich = m.rich ∧
      (m.rich = true → r.richTree.map anon = m.richTree.map anon) ∧ (m.rich = false → r.richTree = none) := by
  have he : entriesOf (entriesJson m.entries) = some m.entries := by
    rw [entriesJson_eq, foldl_putEntry_nodup _ _ hn (by simp), List.nil_append, entriesOf_jsonOf]
    congr 1
    rw [List.map_congr_left (g := id)]
    · simp
    · intro e hm
      simp [Entry.legacy, ht e hm]
  rcases hri : m.rich with _ | _
  · refine ⟨_, _, by simp only [TreeMeta.toJson, hri]; rfl, by simpa using fromJson_base c false m _ _ he none none rfl, ?_⟩
    simp
  · rcases hrt : m.richTree with _ | t
    · refine ⟨_, _, by simp only [TreeMeta.toJson, hri, hrt]; rfl, by simpa using fromJson_base c true m _ _ he none none rfl, ?_⟩
      simp
    · obtain ⟨j, h1, h2⟩ := loads_dump t (hr t hri hrt)
      refine ⟨_, _, by simp only [TreeMeta.toJson, hri, hrt, h1, Option.map_some],
        fromJson_base c true m _ _ he (some j) (some (view c t)) (by simp [h2]), ?_⟩
      simp [view_anon]

theorem mapM_map_eq {α β γ} (g : α → Option β) (h : β → γ) (k : α → γ) : ∀ (l : List α) (r : List β), l.mapM g = some r →
    (∀ a b, a ∈ l → g a = some b → h b = k a) → r.map h = l.map k
  | [], r, e, _ => by simp at e; subst e; rfl
  | a :: l, r, e, hk => by
    simp only [List.mapM_cons, Option.bind_eq_bind, Option.bind_eq_some_iff, Option.pure_def, Option.some.injEq] at e
    obtain ⟨b, hb, r', hr', rfl⟩ := e
    simp only [List.map_cons]
    rw [hk a b (by simp) hb, mapM_map_eq g h k l r' hr' (fun a b ha => hk a b (by simp [ha]))]

theorem mapM_mem_of {α β} (g : α → Option β) : ∀ (l : List α) (r : List β), l.mapM g = some r → ∀ b ∈ r, ∃ a ∈ l, g a = some b
  | [], r, e, b, hb => by simp at e; subst e; cases hb
  | a :: l, r, e, b, hb => by
    simp only [List.mapM_cons, Option.bind_eq_bind, Option.bind_eq_some_iff, Option.pure_def, Option.some.injEq] at e
    obtain ⟨b', hb', r', hr', rfl⟩ := e
    rcases List.mem_cons.mp hb with rfl | hb
    · exact ⟨a, by simp, hb'⟩
    · obtain ⟨x, hx, h⟩ := mapM_mem_of g l r' hr' b hb
      exact ⟨x, by simp [hx], h⟩

/-- The names of the children of every node are different, for the trees that JAX makes. -/
theorem distinct_of_keysOk {α} : ∀ (t : Tree α), t.KeysOk → t.Distinct
  | .leaf _, _ => trivial
  | .node _ f, h => ⟨keysOk_str_nodup h.1, forest_distinct f h.2⟩
where
  keysOk_str_nodup {l : List Key} (h : Trees.KeysOk l) : (l.map Key.str).Nodup := by
    rcases h.split with ⟨-, h⟩ | ⟨c, hc, h⟩
    · exact h
    · have : ∀ (i : Nat) (l : List Key), SeqFrom c i l → (l.map Key.str).Nodup := by
        intro i l
        induction l generalizing i with
        | nil => simp
        | cons k l ih =>
          intro hs
          simp only [List.map_cons, List.nodup_cons]
          refine ⟨?_, ih _ hs.2⟩
          intro hm
          obtain ⟨k', hk', e⟩ := List.mem_map.mp hm
          obtain ⟨j, h1, -, rfl⟩ := seqFrom_mem _ _ hs.2 k' hk'
          have hk : k = c i := hs.1
          subst hk
          simp only [Key.str, (hc _).2.2, Atom.toStr, NameFormat.showInt] at e
          rw [if_neg (by omega), if_neg (by omega)] at e
          have := NameFormat.dec_inj e
          omega
      exact this 0 l h
  forest_distinct {α} : ∀ (f : Forest α), f.KeysOk → f.Distinct
  | .nil, _ => trivial
  | .cons _ t r, h => ⟨distinct_of_keysOk t h.1, forest_distinct r h.2⟩

/-- C51 (build): the entries built from a tree have different key paths, one for every leaf, in the order of the leaves, with the type and the shape that
the handler recorded: metadata that `C51_json_round_trip` applies to. -/
theorem C51_build_entries (pr : Char → Bool) (infos : Tree Info) (n : Nat) (oc : Option Bool) (z : Bool) (cu : Py) (st ri : Bool) (m : TreeMeta)
    (hk : infos.KeysOk) (hn : (infos.flat true).length ≤ n) (h : TreeMeta.build pr infos n oc z cu st ri = some m) :
    (m.entries.map (·.keypath)).Nodup ∧
    m.entries.map (fun e => (e.keys.map fun k => k.name, some e.value.type, e.value.shape)) =
      (infos.flat true).map (fun x => (strPath x.1, match x.2 with | .leaf i => (i.typestr, i.shape) | .node _ _ => (none, none))) ∧
    (∀ e ∈ m.entries, e.value.skip = true ↔ e.value.type = "List".toList ∨ e.value.type = "NamedTuple".toList ∨ e.value.type = "Tuple".toList ∨
      e.value.type = "Dict".toList ∨ e.value.type = "None".toList) ∧
    m.ocdbt = oc ∧ m.zarr3 = z ∧ m.custom = cu ∧ m.store = st ∧ m.rich = ri := by
  simp only [TreeMeta.build, List.take_of_length_le hn, Option.bind_eq_bind, Option.bind_eq_some_iff, Option.pure_def] at h
  obtain ⟨es, he, h⟩ := h
  have hm : ∃ tr, m = ⟨es, oc, z, cu, st, ri, tr⟩ := by
    split at h
    · simp only [Option.bind_eq_some_iff, Option.some.injEq] at h
      obtain ⟨tr, -, rfl⟩ := h
      exact ⟨tr, rfl⟩
    · exact ⟨none, by simpa using h.symm⟩
  obtain ⟨tr, rfl⟩ := hm
  refine ⟨?_, ?_, ?_, rfl, rfl, rfl, rfl, rfl⟩
  · have : es.map (·.keypath) = (infos.flat true).map (fun x => tupleRepr pr (strPath x.1)) := by
      refine mapM_map_eq _ _ _ _ _ he ?_
      intro a b _ hb
      obtain ⟨p, t⟩ := a
      cases t with
      | node => simp [Entry.build] at hb
      | leaf i =>
        simp only [Entry.build, Option.map_eq_some_iff] at hb
        obtain ⟨v, -, rfl⟩ := hb
        rfl
    rw [this]
    have hd := Tree.flat_nodup true infos (distinct_of_keysOk infos hk)
    simp only [List.Nodup, List.pairwise_map] at hd ⊢
    exact hd.imp (fun hab e => hab (tupleRepr_inj pr _ _ e))
  · refine mapM_map_eq _ _ _ _ _ he ?_
    intro a b _ hb
    obtain ⟨p, t⟩ := a
    cases t with
    | node => simp [Entry.build] at hb
    | leaf i =>
      simp only [Entry.build, Info.value, Option.map_eq_some_iff] at hb
      obtain ⟨v, ⟨s, hs, rfl⟩, rfl⟩ := hb
      simp [hs, strPath, nestedKey]
  · intro e hm
    obtain ⟨⟨p, t⟩, -, hb⟩ := mapM_mem_of _ _ _ he e hm
    cases t with
    | node => simp [Entry.build] at hb
    | leaf i =>
      simp only [Entry.build, Info.value, Option.map_eq_some_iff] at hb
      obtain ⟨v, ⟨s, hs, rfl⟩, rfl⟩ := hb
      simp [isEmptyType, tNamedTuple, tNone, or_assoc]

/-- C51 (failure): if the tree of save arguments has fewer leaves, the entries of the remaining leaves are left out silently. -/
theorem C51_short_save_args_fails (pr : Char → Bool) (infos : Tree Info) (n : Nat) (oc : Option Bool) (z : Bool) (cu : Py) (st : Bool) (m : TreeMeta)
    (hn : n < (infos.flat true).length) (h : TreeMeta.build pr infos n oc z cu st false = some m) : m.entries.length = n := by
  simp only [TreeMeta.build, Option.bind_eq_bind, Option.bind_eq_some_iff, Option.pure_def] at h
  obtain ⟨es, he, h⟩ := h
  simp only [Bool.false_eq_true, if_false, Option.bind_some, Option.some.injEq] at h
  subst h
  have := congrArg List.length (mapM_map_eq _ (fun _ => ()) (fun _ => ()) _ _ he (fun _ _ _ _ => rfl))
  simp only [List.length_map, List.length_take] at this
  show es.length = n
  omega

/-- C51 (failure): an empty named tuple comes back as `None`. -/
theorem C51_named_tuple_fails (c : Classes) (kp : Name) (ks : List NestedKey) (sh : Option (List Int)) (oc : Option Bool) (z st : Bool) (cu : Py) :
    ((TreeMeta.toJson c ⟨[⟨kp, ks, ⟨tNamedTuple, true, sh⟩⟩], oc, z, cu, st, false, none⟩).bind (TreeMeta.fromJson c false)).map (·.entries) =
      some [⟨kp, ks, ⟨tNone, true, sh⟩⟩] := by
  have he : entriesOf (entriesJson [⟨kp, ks, ⟨tNamedTuple, true, sh⟩⟩]) = some [⟨kp, ks, ⟨tNone, true, sh⟩⟩] := by
    rw [entriesJson_eq]
    exact entriesOf_jsonOf _
  have := fromJson_base c false ⟨[⟨kp, ks, ⟨tNamedTuple, true, sh⟩⟩], oc, z, cu, st, false, none⟩ _ _ he none none rfl
  simp only [List.append_nil] at this
  simp [TreeMeta.toJson, this]

/-- C51 (failure): of the entries with the same key path (as for the keys `1` and `"1"` of a dictionary) only the last is read back. -/
theorem C51_equal_keypaths_fails (c : Classes) (kp : Name) (k1 k2 : List NestedKey) (v1 v2 : Value) (h2 : v2.type ≠ tNamedTuple)
    (oc : Option Bool) (z st : Bool) (cu : Py) :
    ((TreeMeta.toJson c ⟨[⟨kp, k1, v1⟩, ⟨kp, k2, v2⟩], oc, z, cu, st, false, none⟩).bind (TreeMeta.fromJson c false)).map (·.entries) =
      some [⟨kp, k2, v2⟩] := by
  have he : entriesOf (entriesJson [⟨kp, k1, v1⟩, ⟨kp, k2, v2⟩]) = some [⟨kp, k2, v2⟩] := by
    rw [entriesJson_eq]
    have : [⟨kp, k1, v1⟩, ⟨kp, k2, v2⟩].foldl putEntry [] = [(⟨kp, k2, v2⟩ : Entry)] := by simp [putEntry]
    rw [this, entriesOf_jsonOf]
    simp [Entry.legacy, h2]
  have := fromJson_base c false ⟨[⟨kp, k1, v1⟩, ⟨kp, k2, v2⟩], oc, z, cu, st, false, none⟩ _ _ he none none rfl
  simp only [List.append_nil] at this
  simp [TreeMeta.toJson, this]

/-! ### C52: merging -/

/-- The entry for a key path: the last one with it. -/
def lookup (l : List Entry) (k : Name) : Option Entry := l.reverse.find? fun e => e.keypath == k

theorem lookup_append (l m : List Entry) (k : Name) : lookup (l ++ m) k = (lookup m k).or (lookup l k) := by
  simp [lookup, List.find?_append]

theorem lookup_none {l : List Entry} {k : Name} : lookup l k = none ↔ k ∉ l.map (·.keypath) := by
  simp only [lookup, List.find?_eq_none, List.mem_reverse, beq_iff_eq, List.mem_map, not_exists, not_and]

theorem putEntry_keys : ∀ (l : List Entry) (e : Entry), (putEntry l e).map (·.keypath) =
    if e.keypath ∈ l.map (·.keypath) then l.map (·.keypath) else l.map (·.keypath) ++ [e.keypath]
  | [], e => rfl
  | x :: l, e => by
    simp only [putEntry]
    split
    · next h => simp [h]
    · next h =>
      simp only [List.map_cons, putEntry_keys l e, List.mem_cons, Ne.symm h, false_or]
      split <;> simp

theorem putEntry_nodup {l : List Entry} (e : Entry) (h : (l.map (·.keypath)).Nodup) : ((putEntry l e).map (·.keypath)).Nodup := by
  rw [putEntry_keys]
  split
  · exact h
  · next hn => exact List.nodup_append.mpr ⟨h, by simp, by simp; intro x hx e'; exact hn (List.mem_map.mpr ⟨x, hx, e'⟩)⟩

theorem lookup_cons (x : Entry) (l : List Entry) (k : Name) : lookup (x :: l) k = (lookup l k).or (if x.keypath = k then some x else none) := by
  have : x :: l = [x] ++ l := rfl
  rw [this, lookup_append]
  congr 1
  simp [lookup, List.find?_cons]
  split <;> simp_all

theorem lookup_putEntry : ∀ {l : List Entry} (e : Entry) (k : Name), (l.map (·.keypath)).Nodup →
    lookup (putEntry l e) k = if e.keypath = k then some e else lookup l k
  | [], e, k, _ => by simp [putEntry, lookup, List.find?_cons]; split <;> simp_all
  | x :: l, e, k, h => by
    simp only [List.map_cons, List.nodup_cons] at h
    simp only [putEntry]
    split
    · next hx =>
      rw [lookup_cons, lookup_cons]
      split
      · next hk =>
        have : lookup l k = none := lookup_none.mpr (by rw [← hk, ← hx]; exact h.1)
        simp [this]
      · next hk => rw [hx, if_neg hk]
    · next hx =>
      rw [lookup_cons, lookup_cons, lookup_putEntry e k h.2]
      split <;> simp

theorem foldl_putEntry_spec : ∀ (l acc : List Entry), (acc.map (·.keypath)).Nodup →
    ((l.foldl putEntry acc).map (·.keypath)).Nodup ∧ ∀ k, lookup (l.foldl putEntry acc) k = (lookup l k).or (lookup acc k)
  | [], acc, h => ⟨h, by simp [lookup]⟩
  | e :: l, acc, h => by
    obtain ⟨h1, h2⟩ := foldl_putEntry_spec l (putEntry acc e) (putEntry_nodup e h)
    refine ⟨h1, fun k => ?_⟩
    rw [List.foldl_cons, h2, lookup_putEntry e k h, lookup_cons]
    split <;> cases lookup l k <;> simp

theorem get_jsonOf {l : List Entry} : ∀ k, ((jsonOf l).get (fld k)).isSome = (lookup l k).isSome := by
  intro k
  rw [Bool.eq_iff_iff, Option.isSome_iff_ne_none, Option.isSome_iff_ne_none, Ne, Ne, Forest.get_none, lookup_none, jsonOf_keys]
  simp [fld_inj]

theorem mergeFields_jsonOf (ow : Bool) : ∀ (l acc : List Entry) (f : Forest P), (acc.map (·.keypath)).Nodup →
    mergeFields ow (jsonOf acc) (jsonOf l) = some f → f = jsonOf (l.foldl putEntry acc)
  | [], acc, f, _, h => by simp [jsonOf, mergeFields] at h; exact h.symm
  | e :: l, acc, f, hn, h => by
    simp only [jsonOf, mergeFields] at h
    split at h
    · cases h
    · rw [put_jsonOf] at h
      exact mergeFields_jsonOf ow l _ f (putEntry_nodup e hn) h

theorem mergeFields_ok (ow : Bool) : ∀ (l acc : List Entry), (l.map (·.keypath)).Nodup → (acc.map (·.keypath)).Nodup →
    ((mergeFields ow (jsonOf acc) (jsonOf l)).isSome = true ↔ (ow = true ∨ ∀ e ∈ l, e.keypath ∉ acc.map (·.keypath)))
  | [], acc, _, _ => by simp [jsonOf, mergeFields]
  | e :: l, acc, hl, ha => by
    simp only [List.map_cons, List.nodup_cons] at hl
    simp only [jsonOf, mergeFields]
    have hg := get_jsonOf (l := acc) e.keypath
    cases hx : lookup acc e.keypath with
    | none =>
      rw [hx] at hg
      have hnot := lookup_none.mp hx
      simp only [hg, Option.isSome_none, Bool.false_and, Bool.false_eq_true, if_false]
      rw [put_jsonOf, mergeFields_ok ow l _ hl.2 (putEntry_nodup e ha), putEntry_keys, if_neg hnot]
      constructor
      · rintro (h | h)
        · exact .inl h
        · refine .inr (fun x hx => ?_)
          rcases List.mem_cons.mp hx with rfl | hx
          · exact hnot
          · intro hm; exact h x hx (by simp only [List.mem_append]; exact .inl hm)
      · rintro (h | h)
        · exact .inl h
        · refine .inr (fun x hx => ?_)
          simp only [List.mem_append, List.mem_singleton, not_or]
          refine ⟨h x (by simp [hx]), fun e' => hl.1 (by rw [← e']; exact List.mem_map_of_mem hx)⟩
    | some y =>
      rw [hx] at hg
      have hin : e.keypath ∈ acc.map (·.keypath) := by
        apply Classical.byContradiction
        intro hc
        rw [lookup_none.mpr hc] at hx
        cases hx
      cases ow with
      | false =>
        simp only [hg, Option.isSome_some, Bool.not_false, Bool.and_self, if_true, Option.isSome_none, Bool.false_eq_true, false_or, false_iff]
        intro h
        exact h e (by simp) hin
      | true =>
        simp only [hg, Option.isSome_some, Bool.not_true, Bool.and_false, Bool.false_eq_true, if_false, true_or, iff_true]
        rw [put_jsonOf]
        exact (mergeFields_ok true l _ hl.2 (putEntry_nodup e ha)).mpr (.inl rfl)

theorem map_legacy_keys (l : List Entry) : (l.map Entry.legacy).map (·.keypath) = l.map (·.keypath) := by
  simp [legacy_keypath]

theorem lookup_legacy (l : List Entry) (k : Name) : lookup (l.map Entry.legacy) k = (lookup l k).map Entry.legacy := by
  simp only [lookup, ← List.map_reverse, List.find?_map]
  congr 1
  simp [Function.comp_def, legacy_keypath]

theorem merge_entries_spec {ow : Bool} {a b m : TreeMeta} (h : a.merge ow b = some m) :
    m.entries = (((b.entries.foldl putEntry []).foldl putEntry (a.entries.foldl putEntry [])).map Entry.legacy) ∧
    a.zarr3 = b.zarr3 ∧ a.ocdbt = b.ocdbt ∧ a.rich = b.rich ∧ a.store = b.store ∧
    m.zarr3 = a.zarr3 ∧ m.ocdbt = a.ocdbt ∧ m.rich = a.rich ∧ m.store = a.store ∧
    mergeCustom ow a.custom b.custom = some m.custom ∧ mergeRich ow a.richTree b.richTree = some m.richTree := by
  simp only [TreeMeta.merge] at h
  split at h
  · cases h
  split at h
  · cases h
  split at h
  · cases h
  split at h
  · cases h
  next h1 h2 h3 h4 =>
  simp only [Option.bind_eq_bind, Option.bind_eq_some_iff, Option.pure_def, Option.some.injEq] at h
  obtain ⟨f, hf, es, hes, cu, hcu, tr, htr, rfl⟩ := h
  simp only [ne_eq, Decidable.not_not] at h1 h2 h3 h4
  refine ⟨?_, h1, h2, h3, h4, rfl, rfl, rfl, rfl, hcu, htr⟩
  rw [entriesJson_eq, entriesJson_eq] at hf
  have := mergeFields_jsonOf ow _ _ f (foldl_putEntry_spec a.entries [] (by simp)).1 hf
  rw [this, entriesOf_jsonOf] at hes
  cases hes
  rfl

/-- C52: the merged metadata has every key path of either side exactly once, with the entry of the other side if it has one, and else with the entry of this
side; and nothing else.  (An empty named tuple is recorded as `None`, as when the metadata is read.) -/
theorem C52_union (ow : Bool) (a b m : TreeMeta) (h : a.merge ow b = some m) :
    (m.entries.map (·.keypath)).Nodup ∧
    ∀ k, lookup m.entries k = ((lookup b.entries k).or (lookup a.entries k)).map Entry.legacy := by
  obtain ⟨he, -⟩ := merge_entries_spec h
  have ha := foldl_putEntry_spec a.entries [] (by simp)
  have hb := foldl_putEntry_spec b.entries [] (by simp)
  have hab := foldl_putEntry_spec (b.entries.foldl putEntry []) (a.entries.foldl putEntry []) ha.1
  rw [he]
  refine ⟨by rw [map_legacy_keys]; exact hab.1, fun k => ?_⟩
  rw [lookup_legacy, hab.2, hb.2, ha.2]
  simp [lookup]

/-- C52: without `overwrite` a key path on both sides is an error. -/
theorem C52_conflict (a b : TreeMeta) (k : Name) (ha : k ∈ a.entries.map (·.keypath)) (hb : k ∈ b.entries.map (·.keypath)) :
    a.merge false b = none := by
  cases h : a.merge false b with
  | none => rfl
  | some m =>
    exfalso
    simp only [TreeMeta.merge] at h
    split at h
    · cases h
    split at h
    · cases h
    split at h
    · cases h
    split at h
    · cases h
    simp only [Option.bind_eq_bind, Option.bind_eq_some_iff, Option.pure_def, Option.some.injEq] at h
    obtain ⟨f, hf, -⟩ := h
    rw [entriesJson_eq, entriesJson_eq] at hf
    have h1 := foldl_putEntry_spec a.entries [] (by simp)
    have h2 := foldl_putEntry_spec b.entries [] (by simp)
    have := (mergeFields_ok false _ _ h2.1 h1.1).mp (by rw [hf]; rfl)
    have hin : ∀ l : List Entry, k ∈ l.map (·.keypath) → k ∈ (l.foldl putEntry []).map (·.keypath) := by
      intro l hl
      apply Classical.byContradiction
      intro hc
      have h3 := lookup_none.mpr hc
      rw [(foldl_putEntry_spec l [] (by simp)).2] at h3
      have : lookup l k = none := by
        cases hl' : lookup l k with
        | none => rfl
        | some x => rw [hl'] at h3; simp at h3
      exact lookup_none.mp this hl
    rcases this with h | h
    · cases h
    · obtain ⟨e, he, rfl⟩ := List.mem_map.mp (hin b.entries hb)
      exact h e he (hin a.entries ha)

/-- C52: metadata with the same flags merges if the custom metadata and the value metadata trees do and, without `overwrite`, no key path is on both sides; and
the flags stay. -/
theorem C52_succeeds (ow : Bool) (a b : TreeMeta) (hz : a.zarr3 = b.zarr3) (ho : a.ocdbt = b.ocdbt) (hr : a.rich = b.rich) (hs : a.store = b.store)
    (hd : ow = true ∨ ∀ k, k ∈ b.entries.map (·.keypath) → k ∉ a.entries.map (·.keypath))
    (hc : a.custom = .pyNone ∨ b.custom = .pyNone ∨ (mergeTrees ow P.sameType [a.custom, b.custom]).isSome = true)
    (ht : a.richTree = none ∨ b.richTree = none ∨ ∃ s t, a.richTree = some s ∧ b.richTree = some t ∧ (mergeTrees ow P.sameType [s, t]).isSome = true) :
    ∃ m, a.merge ow b = some m ∧ m.zarr3 = a.zarr3 ∧ m.ocdbt = a.ocdbt ∧ m.rich = a.rich ∧ m.store = a.store := by
  have h1 := foldl_putEntry_spec a.entries [] (by simp)
  have h2 := foldl_putEntry_spec b.entries [] (by simp)
  have hin : ∀ (l : List Entry) k, k ∈ (l.foldl putEntry []).map (·.keypath) → k ∈ l.map (·.keypath) := by
    intro l k hl
    apply Classical.byContradiction
    intro hc
    have h3 := lookup_none.mpr hc
    have h4 := (foldl_putEntry_spec l [] (by simp)).2 k
    rw [h3] at h4
    exact lookup_none.mp (by rw [h4]; rfl) hl
  have hm : (mergeFields ow (entriesJson a.entries) (entriesJson b.entries)).isSome = true := by
    rw [entriesJson_eq, entriesJson_eq, mergeFields_ok ow _ _ h2.1 h1.1]
    rcases hd with hd | hd
    · exact .inl hd
    · exact .inr (fun e he hx => hd e.keypath (hin _ _ (List.mem_map_of_mem he)) (hin _ _ hx))
  obtain ⟨f, hf⟩ := Option.isSome_iff_exists.mp hm
  have hfe : ∃ es, entriesOf f = some es := by
    rw [entriesJson_eq, entriesJson_eq] at hf
    rw [mergeFields_jsonOf ow _ _ f h1.1 hf]
    exact ⟨_, entriesOf_jsonOf _⟩
  obtain ⟨es, hes⟩ := hfe
  have hcu : ∃ cu, mergeCustom ow a.custom b.custom = some cu := by
    simp only [mergeCustom]
    split
    · next h =>
      rcases hc with hc | hc | hc
      · exact absurd hc h.1
      · exact absurd hc h.2
      · exact Option.isSome_iff_exists.mp hc
    · exact ⟨_, rfl⟩
  obtain ⟨cu, hcu⟩ := hcu
  have htr : ∃ tr, mergeRich ow a.richTree b.richTree = some tr := by
    rcases ht with h | h | ⟨s, t, e1, e2, e3⟩
    · exact ⟨b.richTree, by rw [h]; rfl⟩
    · rw [h]
      cases a.richTree with
      | none => exact ⟨none, rfl⟩
      | some s => exact ⟨_, rfl⟩
    · obtain ⟨r, hr⟩ := Option.isSome_iff_exists.mp e3
      exact ⟨some r, by rw [e1, e2]; simp [mergeRich, hr]⟩
  obtain ⟨tr, htr⟩ := htr
  refine ⟨⟨es, a.ocdbt, a.zarr3, cu, a.store, a.rich, tr⟩, ?_, rfl, rfl, rfl, rfl⟩
  simp [TreeMeta.merge, hz, ho, hr, hs, hf, hes, hcu, htr]

/-- C52: metadata with different formats does not merge. -/
theorem C52_mismatch (ow : Bool) (a b : TreeMeta) (h : a.zarr3 ≠ b.zarr3 ∨ a.ocdbt ≠ b.ocdbt ∨ a.rich ≠ b.rich ∨ a.store ≠ b.store) : a.merge ow b = none := by
  cases hm : a.merge ow b with
  | none => rfl
  | some m =>
    obtain ⟨-, h1, h2, h3, h4, -⟩ := merge_entries_spec hm
    rcases h with h | h | h | h
    · exact absurd h1 h
    · exact absurd h2 h
    · exact absurd h3 h
    · exact absurd h4 h

theorem legacy_idem (e : Entry) : e.legacy.legacy = e.legacy := by
  by_cases h : e.value.type = tNamedTuple
  · have h' : tNone ≠ tNamedTuple := by decide
    simp [Entry.legacy, h, h']
  · simp [Entry.legacy, h]

/-- C52 (several): merging any number of metadata objects one after the other gives for every key path the entry of the last object that has it. -/
theorem C52_last_wins (ow : Bool) : ∀ (ms : List TreeMeta) (a m : TreeMeta), ms.foldlM (fun acc b => acc.merge ow b) a = some m →
    ∀ k, (lookup m.entries k).map Entry.legacy = (((a :: ms).reverse.findSome? fun x => lookup x.entries k).map Entry.legacy)
  | [], a, m, h, k => by
    simp only [List.foldlM_nil, Option.pure_def, Option.some.injEq] at h
    subst h
    simp
  | b :: ms, a, m, h, k => by
    simp only [List.foldlM_cons, Option.bind_eq_bind, Option.bind_eq_some_iff] at h
    obtain ⟨x, hx, hm⟩ := h
    rw [C52_last_wins ow ms x m hm k]
    have hu := (C52_union ow a b x hx).2 k
    simp only [List.reverse_cons, List.findSome?_append, List.findSome?_cons, List.findSome?_nil]
    cases ms.reverse.findSome? (fun x => lookup x.entries k) with
    | some y => simp
    | none =>
      simp only [Option.none_or, hu]
      cases lookup b.entries k <;> cases lookup a.entries k <;> simp [legacy_idem]

/-- C52 (custom metadata): if only one side has custom metadata, that is the result. -/
theorem C52_custom_one (ow : Bool) (a b m : TreeMeta) (h : a.merge ow b = some m) :
    (a.custom = .pyNone → m.custom = b.custom) ∧ (b.custom = .pyNone → Py.truthy a.custom = true → m.custom = a.custom) := by
  obtain ⟨-, -, -, -, -, -, -, -, -, hc, -⟩ := merge_entries_spec h
  constructor
  · intro he
    rw [he] at hc
    simp [mergeCustom, Py.truthy, Tree.pyNone] at hc
    exact hc.symm
  · intro he ht
    rw [he] at hc
    simp [mergeCustom, ht] at hc
    exact hc.symm

/-- C52 (custom metadata): with custom metadata on both sides the result is their merge as trees. -/
theorem C52_custom_both (ow : Bool) (a b m : TreeMeta) (h : a.merge ow b = some m) (ha : a.custom ≠ .pyNone) (hb : b.custom ≠ .pyNone) :
    mergeTrees ow P.sameType [a.custom, b.custom] = some m.custom := by
  obtain ⟨-, -, -, -, -, -, -, -, -, hc, -⟩ := merge_entries_spec h
  simp only [mergeCustom, ha, hb, ne_eq, not_false_eq_true, and_self, if_true] at hc
  exact hc

/-- C52 (rich types): the value metadata tree is the merge of the two trees, or the one there is (if it is a container, not an empty one). -/
theorem C52_rich (ow : Bool) (a b m : TreeMeta) (h : a.merge ow b = some m) :
    (∀ s t, a.richTree = some s → b.richTree = some t → ∃ r, mergeTrees ow P.sameType [s, t] = some r ∧ m.richTree = some r) ∧
    (∀ k f, a.richTree = some (.node k f) → f ≠ .nil → k ≠ .none → b.richTree = none → m.richTree = a.richTree) ∧
    (a.richTree = none → m.richTree = b.richTree) := by
  obtain ⟨-, -, -, -, -, -, -, -, -, -, hc⟩ := merge_entries_spec h
  refine ⟨?_, ?_, ?_⟩
  · intro s t hs ht
    rw [hs, ht] at hc
    simp only [mergeRich, Option.map_eq_some_iff] at hc
    obtain ⟨r, h1, h2⟩ := hc
    exact ⟨r, h1, h2.symm⟩
  · intro k f hs hf hk ht
    rw [hs, ht] at hc
    have : Py.truthy (.node k f) = true := by
      cases f with
      | nil => exact absurd rfl hf
      | cons => cases k <;> first | exact absurd rfl hk | rfl
    simp only [mergeRich, this, if_true, Option.some.injEq] at hc
    rw [hs, hc]
  · intro hs
    rw [hs] at hc
    simp only [mergeRich, Option.some.injEq] at hc
    exact hc.symm

/-- C52 (failure): empty custom metadata merged with none is lost. -/
theorem C52_empty_custom_fails (ow : Bool) (a b m : TreeMeta) (h : a.merge ow b = some m) (ha : a.custom = .node .dict .nil) (hb : b.custom = .pyNone) :
    m.custom = .pyNone := by
  obtain ⟨-, -, -, -, -, -, -, -, -, hc, -⟩ := merge_entries_spec h
  rw [ha, hb] at hc
  simp [mergeCustom, Py.truthy, Forest.isEmpty] at hc
  exact hc.symm

/-! ### C57: flattening and unflattening -/

/-- The metadata a user builds from a tree with string keys, a list, a tuple, a named tuple or a bare leaf. -/
def TM.Ok {α} (m : TM α) : Prop :=
  match m.tree with
  | .leaf _ => True
  | .node .dict f => (∀ k ∈ f.keys, ∃ n, k = .dict (.str n)) ∧ f.keys.Nodup
  | .node (.named _) f => (∀ k ∈ f.keys, ∃ n, k = .attr n) ∧ f.keys.Nodup
  | .node .list f => SeqFrom Key.seq 0 f.keys
  | .node .tuple f => SeqFrom Key.seq 0 f.keys
  | .node _ _ => False

theorem toList_keys {α} : ∀ f : Forest α, f.toList.map (·.1) = f.keys
  | .nil => rfl
  | .cons k t r => by simp [Forest.toList, Forest.keys, toList_keys r]

theorem kwargs_dict {α} : ∀ (f g : Forest α), (∀ k ∈ f.keys, ∃ n, k = .dict (.str n)) → f.keys.Nodup → (∀ k ∈ f.keys, g.get k = none) →
    kwargs (f.toList.map (·.1)) (f.toList.map (·.2)) g = g.append f
  | .nil, g, _, _, _ => by simp [Forest.toList, kwargs, Forest.append_nil]
  | .cons k t r, g, hk, hn, hg => by
    obtain ⟨n, rfl⟩ := hk k (by simp [Forest.keys])
    simp only [Forest.keys, List.nodup_cons] at hn
    simp only [Forest.toList, List.map_cons, kwargs]
    have e : (Key.dict (.str (Key.dict (.str n)).str)) = .dict (.str n) := rfl
    rw [e, kwargs_dict r _ (fun k hk' => hk k (by simp [Forest.keys, hk'])) hn.2, Forest.put_new g _ t (hg _ (by simp [Forest.keys])), Forest.append_assoc]
    · rfl
    · intro k' hk'
      rw [Forest.put_get_ne _ _ (by rintro rfl; exact hn.1 hk')]
      exact hg k' (by simp [Forest.keys, hk'])

theorem enumFrom_toList {α} : ∀ (f : Forest α) (i : Nat), SeqFrom Key.seq i f.keys → enumFrom i (f.toList.map (·.2)) = f
  | .nil, i, _ => rfl
  | .cons k t r, i, h => by
    have : k = .seq i := h.1
    subst this
    simp only [Forest.toList, List.map_cons, enumFrom]
    rw [enumFrom_toList r (i + 1) h.2]

/-- The fields as keyword arguments. -/
def toKw {α} : Forest α → Forest α
  | .nil => .nil
  | .cons k t r => .cons (.dict (.str k.str)) t (toKw r)

theorem toKw_list {α} : ∀ f : Forest α, f.toList.map (fun x => (Key.dict (.str x.1.str), x.2)) = (toKw f).toList
  | .nil => rfl
  | .cons k t r => by simp [Forest.toList, toKw, toKw_list r]

theorem toKw_keys {α} : ∀ f : Forest α, (toKw f).keys = f.keys.map fun k => .dict (.str k.str)
  | .nil => rfl
  | .cons k t r => by simp [Forest.keys, toKw, toKw_keys r]

theorem asFields_toKw {α} : ∀ f : Forest α, (∀ k ∈ f.keys, ∃ n, k = .attr n) → asFields (toKw f) = f
  | .nil, _ => rfl
  | .cons k t r, h => by
    obtain ⟨n, rfl⟩ := h k (by simp [Forest.keys])
    simp only [toKw, asFields]
    rw [asFields_toKw r (fun k hk => h k (by simp [Forest.keys, hk]))]
    rfl

/-- C57 (once): flattening a `TreeMetadata` and unflattening its children gives the same metadata. -/
theorem C57_once {α} (m : TM α) (h : m.Ok) : ∃ aux, unflattenMeta m.flatten.2 (m.flatten.1.map (·.2)) = some (m, aux) := by
  obtain ⟨t, cu, z⟩ := m
  refine ⟨⟨none, none, cu, z⟩, ?_⟩
  cases t with
  | leaf a => rfl
  | node kd f =>
    cases kd with
    | none => exact absurd h (by simp [TM.Ok])
    | custom ty => exact absurd h (by simp [TM.Ok])
    | dict =>
      have := kwargs_dict f .nil h.1 h.2 (by simp [Forest.get])
      simp only [TM.flatten, unflattenMeta, treeType, this]
      rfl
    | list =>
      have := enumFrom_toList f 0 h
      simp only [TM.flatten, unflattenMeta, treeType, this]
      rfl
    | tuple =>
      have := enumFrom_toList f 0 h
      simp only [TM.flatten, unflattenMeta, treeType, this]
      rfl
    | named ty =>
      have h1 : ∀ k ∈ f.keys, ∃ n, k = .attr n := h.1
      have hk : ∀ k ∈ (toKw f).keys, ∃ n, k = .dict (.str n) := by
        rw [toKw_keys]
        intro k hk
        obtain ⟨k', -, rfl⟩ := List.mem_map.mp hk
        exact ⟨_, rfl⟩
      have hn : (toKw f).keys.Nodup := by
        rw [toKw_keys]
        have h2 : f.keys.Nodup := h.2
        refine List.pairwise_map.mpr (h2.imp_of_mem ?_)
        intro a b ha hb hab e
        obtain ⟨n, rfl⟩ := h1 a ha
        obtain ⟨n', rfl⟩ := h1 b hb
        simp [Key.str, Key.name, Atom.toStr] at e
        exact hab (by rw [e])
      have := kwargs_dict (toKw f) .nil hk hn (by simp [Forest.get])
      simp only [TM.flatten, unflattenMeta, treeType, toKw_list, this]
      simp [Forest.append, asFields_toKw f h1, TM.make]

/-- C57 (rounds): flattening and unflattening afresh any number of times keeps the metadata. -/
theorem C57_rounds {α} (m : TM α) (h : m.Ok) (n : Nat) :
    Nat.repeat (fun x => x.bind fun m => (unflattenMeta m.flatten.2 (m.flatten.1.map (·.2))).map (·.1)) n (some m) = some m := by
  induction n with
  | zero => rfl
  | succ n ih =>
    obtain ⟨aux, ha⟩ := C57_once m h
    rw [Nat.repeat, ih]
    simp [ha]

/-- C57 (children): the children are those of the tree, under its keys, so mapping over them maps over the tree. -/
theorem C57_children {α} (m : TM α) (h : m.Ok) : m.flatten.1.map (fun x => (x.1.str, x.2)) =
    (match m.tree with
      | .leaf a => [(['t', 'r', 'e', 'e'], .leaf a)]
      | .node _ f => f.toList.map fun x => (x.1.str, x.2)) := by
  obtain ⟨t, cu, z⟩ := m
  cases t with
  | leaf a => rfl
  | node kd f =>
    cases kd with
    | named ty => simp only [TM.flatten, List.map_map]; rfl
    | _ => rfl

/-- C57 (failure): the same structure cannot be used twice: whatever the values, the second unflattening raises. -/
theorem C57_twice_fails {α} (aux aux' : Aux α) (vals vals' : List (Tree α)) (m : TM α) (h : unflattenMeta aux vals = some (m, aux')) :
    unflattenMeta aux' vals' = none := by
  simp only [unflattenMeta] at h
  split at h
  · simp only [Option.map_eq_some_iff, Prod.mk.injEq] at h
    obtain ⟨x, -, -, rfl⟩ := h
    rfl
  · cases h

/-- C57 (failure): integer keys become strings. -/
theorem C57_integer_keys_fails {α} (i : Int) (v : Tree α) (cu : Option (Tree α)) (z : Bool) :
    let m : TM α := ⟨.node .dict (.cons (.dict (.int i)) v .nil), cu, z⟩
    (unflattenMeta m.flatten.2 (m.flatten.1.map (·.2))).map (·.1.tree) = some (.node .dict (.cons (.dict (.str (Atom.int i).toStr)) v .nil)) := rfl

/-! ### Examples -/

def infoExample : Tree Info :=
  .node .dict (.cons (.dict (.str ['a'])) (.leaf ⟨some ['x'], some [2]⟩) (.cons (.dict (.str ['b'])) (.node .tuple
    (.cons (.seq 0) (.leaf ⟨some tNone, none⟩) .nil)) .nil))

example : infoExample.KeysOk := by
  refine ⟨.inl ⟨?_, ?_⟩, trivial, ⟨.inr (.inr (.inl ?_)), trivial, trivial⟩, trivial⟩
  · intro k hk
    simp [Forest.keys] at hk
    rcases hk with rfl | rfl <;> rfl
  · simp [Forest.keys, Key.str, Key.name, Atom.toStr]
  · exact ⟨rfl, trivial⟩

example : ∃ m, TreeMeta.build (fun _ => true) infoExample 2 none true .pyNone true true = some m ∧ m.entries.length = 2 := ⟨_, rfl, rfl⟩

/-- Two metadata objects that share a key path. -/
def metaExample (v : Name) (l : List Name) : TreeMeta :=
  ⟨l.map fun k => ⟨k, [⟨k, .dict⟩], ⟨v, false, none⟩⟩, some true, false, .pyNone, true, false, none⟩

example : ((metaExample ['1'] [['a'], ['b']]).merge true (metaExample ['2'] [['b'], ['c']])).map (fun m => m.entries.map fun e => (e.keypath, e.value.type)) =
    some [(['a'], ['1']), (['b'], ['2']), (['c'], ['2'])] := by decide
example : ((metaExample ['1'] [['a'], ['b']]).merge false (metaExample ['2'] [['b'], ['c']])).isNone = true := by decide
example : (⟨dictNode [(['a'], .leaf 1), (['b'], .leaf 2)], none, false⟩ : TM Nat).Ok := by
  refine ⟨?_, ?_⟩
  · intro k hk
    simp [Forest.keys, Forest.ofList] at hk
    rcases hk with rfl | rfl <;> exact ⟨_, rfl⟩
  · simp [Forest.keys, Forest.ofList]

/-- C51: the recorded key of a leaf under names of printable ASCII characters other than quotes and the backslash is the tuple of the names in
single quotes: `('a',)`, `('a', 'b')`. -/
theorem C51_key_text (pr : Char → Bool) (l : List Name)
    (h : ∀ a ∈ l, ∀ c ∈ a, 32 ≤ c.toNat ∧ c.toNat < 127 ∧ c ≠ '\'' ∧ c ≠ '"' ∧ c ≠ '\\') :
    tupleRepr pr l = '(' :: (join [',', ' '] (l.map fun a => '\'' :: (a ++ ['\''])) ++ (if l.length = 1 then [',', ')'] else [')'])) := by
  have one : ∀ a ∈ l, pyRepr pr a = '\'' :: (a ++ ['\'']) := by
    intro a ha
    have hq : reprQuote a = '\'' := by
      have hn : '\'' ∉ a := fun hm => (h a ha _ hm).2.2.1 rfl
      simp [reprQuote, hn]
    have hc : ∀ c ∈ a, reprChar pr '\'' c = [c] := by
      intro c hc
      obtain ⟨h1, h2, h3, h4, h5⟩ := h a ha c hc
      have n1 : ∀ d : Char, d.toNat < 32 → c ≠ d := fun d hd e => by subst e; omega
      simp only [reprChar]
      rw [if_neg (by simp [h3, h5]), if_neg (n1 _ (by decide)), if_neg (n1 _ (by decide)), if_neg (n1 _ (by decide)),
        if_neg (by omega), if_pos (.inl h2)]
    have hf : ∀ b : Name, (∀ c ∈ b, reprChar pr '\'' c = [c]) → b.flatMap (reprChar pr '\'') = b := by
      intro b
      induction b with
      | nil => intro _; rfl
      | cons c b ih =>
        intro hb
        rw [List.flatMap_cons, hb c (by simp), ih fun d hd => hb d (by simp [hd])]
        rfl
    simp only [pyRepr, hq, hf a hc]
  cases l with
  | nil => rfl
  | cons a l =>
    cases l with
    | nil => simp [tupleRepr, one a (by simp), join]
    | cons b l =>
      simp only [tupleRepr, List.length_cons]
      rw [List.map_congr_left one]
      simp

end Verif.TreeMetadata
