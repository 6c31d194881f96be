import Verif.PyTree.PlaceholderProps

/-!
# Property C85: when a tree can be saved; findings; examples
-/

namespace Verif.PyTree

open Verif Verif.Trees Verif.TreeMetadata

/-! ### Saving -/

theorem mapM_some {α β} (f : α → Option β) : ∀ l : List α, (∀ x ∈ l, (f x).isSome = true) → ∃ r, l.mapM f = some r
  | [], _ => ⟨[], by simp⟩
  | x :: l, h => by
    obtain ⟨y, hy⟩ := Option.isSome_iff_exists.mp (h x (by simp))
    obtain ⟨r, hr⟩ := mapM_some f l (fun z hz => h z (List.mem_cons_of_mem _ hz))
    exact ⟨y :: r, by simp [List.mapM_cons, hy, hr]⟩

/-- C85 (what can be saved): saving succeeds exactly if the tree is not an empty container (or `None`) as a whole and there is a type handler for
every leaf. -/
theorem C85_save {V D} (C : Codec V D) (o : Options) (t : Tree V) (hk : t.KeysOk) :
    (∃ ck, Saved C o t ck) ↔ (∀ k, t = .node k .nil → ∃ n, k = .custom n) ∧ ∀ p v, t.at_ p = some (.leaf v) → ∃ s, C.typestr v = some s := by
  have hd := keysOk_distinct t hk
  constructor
  · rintro ⟨ck, j, ws, ws', h, -, -⟩
    simp only [save] at h
    split at h
    · cases h
    · next hr =>
      simp only [Option.bind_eq_bind, Option.bind_eq_some_iff] at h
      obtain ⟨ws0, hw, -⟩ := h
      refine ⟨?_, ?_⟩
      · rintro k rfl
        cases k with
        | custom n => exact ⟨n, rfl⟩
        | _ => exact absurd rfl hr
      · intro p v hv
        have := (writes_eq C _ _ hw).2 (p, .leaf v) ((t.flat_spec true hd p _).mpr ⟨hv, rfl, by simp⟩) v rfl
        exact Option.isSome_iff_exists.mp this
  · rintro ⟨h1, h2⟩
    have hr : refused t = false := by
      cases t with
      | leaf => rfl
      | node k f =>
        cases f with
        | nil =>
          obtain ⟨n, rfl⟩ := h1 k rfl
          rfl
        | cons => cases k <;> rfl
    obtain ⟨ws, hw⟩ := writes_some C (t.flat true) (by
      rintro ⟨p, u⟩ hx v rfl
      obtain ⟨s, hs⟩ := h2 p v ((t.flat_spec true hd p _).mp hx).1
      simp [hs])
    obtain ⟨es, he⟩ := mapM_some (fun x => Entry.build o.printable x.1 x.2) ((Tree.infos C t).flat true) (by
      intro x hx
      rw [infos_flat, List.mem_map] at hx
      obtain ⟨y, -, rfl⟩ := hx
      rfl)
    have hm : TreeMeta.build o.printable (Tree.infos C t) ((Tree.infos C t).flat true).length o.ocdbt o.zarr3 o.custom o.store false =
        some ⟨es, o.ocdbt, o.zarr3, o.custom, o.store, false, none⟩ := by
      simp [TreeMeta.build, he]
    have hj : ∃ j, TreeMeta.toJson o.classes ⟨es, o.ocdbt, o.zarr3, o.custom, o.store, false, none⟩ = some j := ⟨_, rfl⟩
    obtain ⟨j, hj⟩ := hj
    exact ⟨⟨j, putAll ws⟩, j, ws, ws, by simp [save, hr, hw, hm, hj], .refl _, rfl⟩

/-! ### Findings -/

theorem restore_none_eq {V D} {C : Codec V D} {o : Options} {t : Tree V} {ck : Ckpt D} {M : Py} (hM : Meta C o t ck M) (part : Bool) :
    restore C o ck part none none = M.mapPath false (fun p => leafResult C ck.params p (entryAt M p) none) [] := by
  obtain ⟨m, h1, h2⟩ := hM.read
  have hpl := norm_pl M hM.norm
  have hMk := pl_keysOk M hpl
  simp only [restore, h1, h2, Option.bind_eq_bind, Option.bind_some, hM.truthy, if_true]
  rw [restoreWith_eq C ck.params M hMk (Tree.map some M) none (by simp) (entryAt M) ?_]
  · rfl
  · intro x hx
    obtain ⟨h3, -, h4⟩ := (M.flat_spec false (keysOk_distinct M hMk) x.1 x.2).mp hx
    obtain ⟨e, he⟩ := h4 rfl
    rw [he] at h3
    refine walk_meta hM.norm (e := e) ?_
    rw [pl_path _ M _ hpl h3]
    exact h3

/-- C85 (finding: values can be lost): if the names of two parameters, joined by dots, are the same, then two different values of one type are not both
restored, whatever the order in which they were written. -/
theorem C85_equal_names_fails {V D} (C : Codec V D) (hC : Faithful C) (o : Options) (t : Tree V) (ck : Ckpt D) (part : Bool) (hk : t.KeysOk)
    (hs : Saved C o t ck) (p q : List Key) (v w : V) (hp : t.at_ p = some (.leaf v)) (hq : t.at_ q = some (.leaf w)) (hvw : v ≠ w)
    (ht : C.typestr v = C.typestr w) (hn : paramName p = paramName q) (r : Tree (Option V)) (hr : restore C o ck part none none = some r) :
    ¬ SameValue r (Tree.expected t).plain := by
  obtain ⟨M, hM⟩ := saved_meta C o t ck hC hk hs
  have hd := keysOk_distinct t hk
  rw [restore_none_eq hM] at hr
  have hat := mapPath_at _ M [] r hr
  have hpl := norm_pl M hM.norm
  have key : ∀ (p : List Key) v, t.at_ p = some (.leaf v) → r.at_ (p.map normKey) =
      leafResult C ck.params p (some (.entry (valueOf C (.leaf v)))) none ∧ (Tree.expected t).plain.at_ (p.map normKey) = some (.leaf (some v)) := by
    intro p v hp
    have h1 := (t.flat_spec true hd p (.leaf v)).mpr ⟨hp, rfl, by simp⟩
    have h2 := (hM.leaves (p.map normKey) _).mpr ⟨_, h1, rfl, rfl⟩
    have h3 := (plain_at_iff t hk (p.map normKey) (.leaf v) rfl).mpr ⟨_, h1, rfl, rfl⟩
    have hpp := pl_path _ M _ hpl h2
    refine ⟨?_, by rw [expected_plain, expected_at, h3]; rfl⟩
    rw [(hat _).1 _ h2, List.nil_append]
    have e1 : entryAt M (p.map normKey) = some (.entry (valueOf C (.leaf v))) := by simp only [entryAt]; rw [hpp, h2]
    have e2 : paramName (p.map normKey) = paramName p := paramName_congr (strPath_norm p)
    rw [e1]
    simp only [leafResult, readLeaf, e2]
  obtain ⟨a1, a2⟩ := key p v hp
  obtain ⟨b1, b2⟩ := key q w hq
  intro hsame
  have h1 := hsame (p.map normKey)
  have h2 := hsame (q.map normKey)
  rw [a1, a2] at h1
  rw [b1, b2] at h2
  have e1 : leafResult C ck.params p (some (.entry (valueOf C (.leaf v)))) none = leafResult C ck.params q (some (.entry (valueOf C (.leaf w)))) none := by
    have : valueOf C (.leaf v) = valueOf C (.leaf w) := by simp [valueOf, typeOf, ht]
    rw [this]
    simp only [leafResult, readLeaf, hn]
  rw [e1] at h1
  revert h1 h2
  cases leafResult C ck.params q (some (.entry (valueOf C (.leaf w)))) none with
  | none => intro h1; cases h1
  | some u =>
    intro h1 h2
    cases u with
    | node => simp [label] at h1
    | leaf x =>
      simp only [Option.map_some, label, Option.some.injEq] at h1 h2
      rw [h1] at h2
      injection h2 with h2
      injection h2 with h2
      exact hvw h2

/-- C85 (finding: an empty container hides a value): where the item has an empty container, restoring succeeds and gives that empty container, even if
a value was saved there. -/
theorem C85_empty_item_fails {V D} (C : Codec V D) (hC : Faithful C) (o : Options) (t : Tree V) (ck : Ckpt D) (hk : t.KeysOk)
    (hn : (paramNames false t).Nodup) (hs : Saved C o t ck) (i : Tree (Option V)) (hi : i.KeysOk) (hp : ∀ p, i.at_ p ≠ some (.leaf none))
    (hsim : Similar i t) (p : List Key) (kd : Kind) (hnode : i.at_ p = some (.node kd .nil)) :
    ∃ r, restore C o ck false (some i) none = some r ∧ r.at_ p = some (.node kd .nil) := by
  obtain ⟨h1, h2⟩ := C85_restore_item C hC o t ck hk hn hs i hi hp
  obtain ⟨r, hr⟩ := Option.isSome_iff_exists.mp (h1.mpr hsim)
  obtain ⟨f', h3, h4⟩ := (h2 r hr).nodes p kd .nil hnode
  refine ⟨r, hr, ?_⟩
  cases f' with
  | nil => exact h3
  | cons => simp [Forest.keys] at h4

/-- C85 (finding: an array is restored as an empty container): where an empty dictionary, list or tuple was saved, restoring an item that has a value
there succeeds and gives the empty container. -/
theorem C85_empty_saved_fails {V D} (C : Codec V D) (hC : Faithful C) (o : Options) (t : Tree V) (ck : Ckpt D) (hk : t.KeysOk)
    (hn : (paramNames false t).Nodup) (hs : Saved C o t ck) (i : Tree (Option V)) (hi : i.KeysOk) (hp : ∀ p, i.at_ p ≠ some (.leaf none))
    (hsim : Similar i t) (p q : List Key) (a : V) (kd : Kind) (hkd : kd = .dict ∨ kd = .list ∨ kd = .tuple) (hpq : strPath q = strPath p)
    (hleaf : i.at_ p = some (.leaf (some a))) (hnode : t.at_ q = some (.node kd .nil)) :
    ∃ r, restore C o ck false (some i) none = some r ∧ r.at_ p = some (.node kd .nil) := by
  obtain ⟨h1, h2⟩ := C85_restore_item C hC o t ck hk hn hs i hi hp
  obtain ⟨r, hr⟩ := Option.isSome_iff_exists.mp (h1.mpr hsim)
  obtain ⟨q', u, h3, h4, h5, h6⟩ := (h2 r hr).leaves p _ hleaf
  refine ⟨r, hr, ?_⟩
  have hd := keysOk_distinct t hk
  have m1 := (t.flat_spec true hd q' u).mpr ⟨h4, h5, by simp⟩
  have m2 := (t.flat_spec true hd q _).mpr ⟨hnode, rfl, by simp⟩
  have := inj_of_nodup_map (fun x : List Key × Tree V => strPath x.1) (t.flat_nodup true hd) _ m1 _ m2 (by simp [h3, hpq])
  simp only [Prod.mk.injEq] at this
  rw [h6, this.2]
  rcases hkd with rfl | rfl | rfl <;> rfl

/-- C85 (finding: partial restore does not know placeholders): a placeholder of the item is restored if the checkpoint has a value there. -/
theorem C85_partial_placeholder_fails {V D} (C : Codec V D) (hC : Faithful C) (o : Options) (t : Tree V) (ck : Ckpt D) (hk : t.KeysOk)
    (hn : (paramNames false t).Nodup) (hs : Saved C o t ck) (i r : Tree (Option V)) (hi : i.KeysOk)
    (hr : restore C o ck true (some i) none = some r) (p : List Key) (v : V) (hp : i.at_ p = some (.leaf none)) (hv : t.at_ p = some (.leaf v)) :
    r.at_ p = some (.leaf (some v)) :=
  ((C85_partial_restore C hC o t ck hk hn hs i hi).2 r hr).saved p none hp p _ rfl hv rfl

/-- C85 (finding: nothing cannot be restored): partial restore of an empty dictionary fails, for every checkpoint of a container with something in it. -/
theorem C85_partial_nothing_fails {V D} (C : Codec V D) (hC : Faithful C) (o : Options) (t : Tree V) (ck : Ckpt D) (hk : t.KeysOk)
    (hn : (paramNames false t).Nodup) (hs : Saved C o t ck) (kd : Kind) (f : Forest V) (ht : t = .node kd f) (hf : f ≠ .nil) :
    restore C o ck true (some (.node .dict .nil)) none = none := by
  have h := (C85_partial_restore C hC o t ck hk hn hs (.node .dict .nil) ⟨.inl ⟨by simp [Forest.keys], by simp [Forest.keys]⟩, trivial⟩).1
  cases hr : restore C o ck true (some (.node .dict .nil)) none with
  | none => rfl
  | some r =>
    rw [hr] at h
    have h1 := h.mp rfl [] (.node .dict .nil) t.plain rfl (by cases t.plain <;> rfl)
    subst ht
    cases f with
    | nil => exact absurd rfl hf
    | cons k u s =>
      exfalso
      simp only [Takes, Forest.isEmpty, if_true, Tree.plain] at h1
      split at h1
      · simp [nodeKind, Forest.isEmpty] at h1
      · simp [nodeKind, Forest.isEmpty] at h1

/-- C85 (finding: a placeholder in a container that was not saved): if the item has a container with something in it where the checkpoint has nothing,
restoring fails, even if there are only placeholders in it. -/
theorem C85_placeholder_subtree_fails {V D} (C : Codec V D) (hC : Faithful C) (o : Options) (t : Tree V) (ck : Ckpt D) (hk : t.KeysOk)
    (hn : (paramNames false t).Nodup) (hs : Saved C o t ck) (i : Tree (Option V)) (hi : i.KeysOk) (hp : ∃ p, i.at_ p = some (.leaf none))
    (q : List Key) (kd : Kind) (f : Forest (Option V)) (hq : i.plain.at_ q = some (.node kd f)) (ht : t.plain.at_ q = none) :
    restore C o ck false (some i) none = none := by
  have h := (C85_restore_placeholders C hC o t ck hk hn hs i hi hp).1
  cases hr : restore C o ck false (some i) none with
  | none => rfl
  | some r =>
    exfalso
    rw [hr] at h
    rcases h.mp rfl q with h1 | ⟨h1, -, -⟩
    · rw [hq, ht] at h1; cases h1
    · rw [hq] at h1; cases h1

/-- C85 (finding: a placeholder in a longer list): a placeholder in a list that was saved shorter makes restoring fail. -/
theorem C85_placeholder_list_fails {V D} (C : Codec V D) (hC : Faithful C) (o : Options) (t : Tree V) (ck : Ckpt D) (hk : t.KeysOk)
    (hn : (paramNames false t).Nodup) (hs : Saved C o t ck) (i : Tree (Option V)) (hi : i.KeysOk)
    (q : List Key) (n : Nat) (hp : ∃ p, i.at_ p = some (.leaf none)) (hq : i.plain.at_ (q ++ [.seq n]) = some (.leaf none))
    (ht : t.plain.at_ (q ++ [.seq n]) = none) :
    restore C o ck false (some i) none = none := by
  have h := (C85_restore_placeholders C hC o t ck hk hn hs i hi hp).1
  cases hr : restore C o ck false (some i) none with
  | none => rfl
  | some r =>
    exfalso
    rw [hr] at h
    rcases h.mp rfl (q ++ [.seq n]) with h1 | ⟨-, -, h1⟩
    · rw [hq, ht] at h1; cases h1
    · obtain ⟨s, hs⟩ := h1 (.seq n) (by simp)
      cases hs

/-! ### Examples -/

/-- Numbers, written as they are. -/
def natCodec : Codec Nat Nat := ⟨fun _ => some ['i'], id, fun _ d => some d⟩

theorem natCodec_faithful : Faithful natCodec := by
  intro v s h
  cases h
  exact ⟨rfl, rfl⟩

def exOptions : Options := ⟨fun _ => true, ⟨id, id, fun _ => true⟩, some true, false, true, .pyNone⟩

/-- `{'a': [1, 2], 'b': 3, 'c': ()}`. -/
def exTree : Tree Nat := dictNode [(['a'], listNode [.leaf 1, .leaf 2]), (['b'], .leaf 3), (['c'], .node .tuple .nil)]

/-- `{'a': (7, 8), 'b': 9, 'c': ()}` -/
def exItem : Tree (Option Nat) :=
  dictNode [(['a'], .node .tuple (enumFrom 0 [.leaf (some 7), .leaf (some 8)])), (['b'], .leaf (some 9)), (['c'], .node .tuple .nil)]

/-- `{'a': [..., ...], 'b': 9, 'd': ...}` is restored in part; `{'a': [..., 8], 'b': 9, 'c': (), 'd': ...}` with placeholders. -/
def exPart : Tree (Option Nat) := dictNode [(['a'], listNode [.leaf (some 7), .leaf (some 8)]), (['d'], .leaf (some 9))]
def exPlace : Tree (Option Nat) :=
  dictNode [(['a'], listNode [.leaf none, .leaf (some 8)]), (['b'], .leaf (some 9)), (['c'], .node .tuple .nil), (['d'], .leaf none)]

theorem exTree_keys : exTree.KeysOk := by
  simp only [exTree, dictNode, listNode, enumFrom, Forest.ofList, List.map, Tree.KeysOk, Forest.KeysOk, Forest.keys, and_true, true_and]
  exact ⟨.inl (by decide), .inr (.inr (.inl ⟨rfl, rfl, trivial⟩)), .inl (by decide)⟩
theorem exItem_keys : exItem.KeysOk := by
  simp only [exItem, dictNode, enumFrom, Forest.ofList, List.map, Tree.KeysOk, Forest.KeysOk, Forest.keys, and_true, true_and]
  exact ⟨.inl (by decide), .inr (.inr (.inl ⟨rfl, rfl, trivial⟩)), .inl (by decide)⟩
theorem exPart_keys : exPart.KeysOk := by
  simp only [exPart, dictNode, listNode, enumFrom, Forest.ofList, List.map, Tree.KeysOk, Forest.KeysOk, Forest.keys, and_true, true_and]
  exact ⟨.inl (by decide), .inr (.inr (.inl ⟨rfl, rfl, trivial⟩))⟩
theorem exPlace_keys : exPlace.KeysOk := by
  simp only [exPlace, dictNode, listNode, enumFrom, Forest.ofList, List.map, Tree.KeysOk, Forest.KeysOk, Forest.keys, and_true, true_and]
  exact ⟨.inl (by decide), .inr (.inr (.inl ⟨rfl, rfl, trivial⟩)), .inl (by decide)⟩
theorem dec_digit {n : Nat} (h : n < 10) : NameFormat.dec n = [NameFormat.digit n] := by rw [NameFormat.dec, if_pos h]
theorem exTree_names : (paramNames false exTree).Nodup := by
  have h : paramNames false exTree = [['a', '.', '0'], ['a', '.', '1'], ['b']] := by
    simp [paramNames, exTree, dictNode, listNode, enumFrom, Forest.ofList, Tree.flat, Forest.flat, Forest.isEmpty, paramName, strPath, join, Key.str, Key.name, Atom.toStr,
      NameFormat.showInt, dec_digit, NameFormat.digit]
  rw [h]
  decide

theorem exSaved : ∃ ck, Saved natCodec exOptions exTree ck := by
  rw [C85_save natCodec exOptions exTree exTree_keys]
  exact ⟨fun k h => (by cases h), fun p v _ => ⟨_, rfl⟩⟩

theorem exItem_similar : Similar exItem exTree := fun q => at_kinds_shape (s := exItem.plain) (t := exTree.plain) rfl q

/-- The hypotheses of `C85_restore` and `C85_restore_item` can be met: a tuple is restored from a saved list. -/
theorem C85_restore_nonvacuous : ∃ ck r s, Saved natCodec exOptions exTree ck ∧ restore natCodec exOptions ck false none none = some r ∧
    SameValue r (Tree.expected exTree).plain ∧ restore natCodec exOptions ck false (some exItem) none = some s ∧ Restored exTree exItem s := by
  obtain ⟨ck, hs⟩ := exSaved
  obtain ⟨r, h1, h2⟩ := C85_restore natCodec natCodec_faithful exOptions exTree ck false exTree_keys exTree_names hs
  obtain ⟨h3, h4⟩ := C85_restore_item natCodec natCodec_faithful exOptions exTree ck exTree_keys exTree_names hs exItem exItem_keys (by
    intro p hp
    have hd := keysOk_distinct exItem exItem_keys
    have := (exItem.flat_spec false hd p _).mpr ⟨hp, rfl, fun _ => ⟨_, rfl⟩⟩
    simp [exItem, dictNode, enumFrom, Forest.ofList, Tree.flat, Forest.flat, Forest.isEmpty] at this)
  obtain ⟨s, h5⟩ := Option.isSome_iff_exists.mp (h3.mpr exItem_similar)
  exact ⟨ck, r, s, hs, h1, h2, h5, h4 s h5⟩

theorem exPart_plain : exPart.plain = exPart := rfl
theorem exPlace_plain : exPlace.plain = exPlace := rfl
theorem exTree_plain : exTree.plain = exTree := rfl

/-- The hypotheses of `C85_partial_restore` can be met: `a` is restored, `d` is kept, `b` and `c` are left out. -/
theorem C85_partial_restore_nonvacuous : ∃ ck r, Saved natCodec exOptions exTree ck ∧ restore natCodec exOptions ck true (some exPart) none = some r ∧
    PartlyRestored exTree exPart r ∧ r.at_ [.dict (.str ['a']), .seq 1] = some (.leaf (some 2)) ∧ r.at_ [.dict (.str ['d'])] = some (.leaf (some 9)) := by
  obtain ⟨ck, hs⟩ := exSaved
  obtain ⟨h3, h4⟩ := C85_partial_restore natCodec natCodec_faithful exOptions exTree ck exTree_keys exTree_names hs exPart exPart_keys
  obtain ⟨r, h5⟩ := Option.isSome_iff_exists.mp (h3.mpr (by
    rw [exPart_plain, exTree_plain]
    intro q v w hv hw
    simp only [exPart, exTree, dictNode, listNode, enumFrom, Forest.ofList, List.map] at hv hw
    rcases q with _ | ⟨k, _ | ⟨k', q⟩⟩
    · cases hv; cases hw
      simp [Takes, nodeKind, Forest.isEmpty]
    · simp only [Tree.at_, Forest.get] at hv hw
      by_cases h1 : Key.dict (.str ['a']) = k
      · subst h1
        simp at hv hw
        subst hv hw
        simp [Takes, nodeKind, Forest.isEmpty, width, Forest.length]
      · by_cases h2 : Key.dict (.str ['d']) = k
        · subst h2
          simp at hw
        · simp [h1, h2] at hv
    · simp only [Tree.at_, Forest.get] at hv hw
      by_cases h1 : Key.dict (.str ['a']) = k
      · subst h1
        simp only [if_true, Option.bind_some, Tree.at_, Forest.get] at hv hw
        by_cases h3 : Key.seq 0 = k'
        · subst h3
          cases q with
          | nil => simp [Tree.at_] at hv hw; subst hv hw; simp [Takes, nodeKind]
          | cons => simp [Tree.at_] at hv
        · by_cases h4 : Key.seq (0 + 1) = k'
          · subst h4
            cases q with
            | nil => simp [Tree.at_] at hv hw; subst hv hw; simp [Takes, nodeKind]
            | cons => simp [Tree.at_] at hv
          · simp [h3, h4] at hv
      · by_cases h2 : Key.dict (.str ['d']) = k
        · subst h2
          simp [Tree.at_] at hv
        · simp [h1, h2] at hv))
  refine ⟨ck, r, hs, h5, h4 r h5, ?_, ?_⟩
  · exact (h4 r h5).saved [.dict (.str ['a']), .seq 1] (some 8) rfl [.dict (.str ['a']), .seq 1] (.leaf 2) rfl rfl rfl
  · refine (h4 r h5).other [.dict (.str ['d'])] (some 9) rfl ?_
    intro q u hq hu
    cases h : u.emptyOrLeaf with
    | false => rfl
    | true =>
      exfalso
      have := (exTree.flat_spec true (keysOk_distinct exTree exTree_keys) q u).mpr ⟨hu, h, by simp⟩
      simp only [exTree, dictNode, listNode, enumFrom, Forest.ofList, List.map, Tree.flat, Forest.flat, Forest.isEmpty] at this
      simp at this
      rcases this with ⟨rfl, -⟩ | ⟨rfl, -⟩ | ⟨rfl, -⟩ | ⟨rfl, -⟩ <;> simp [strPath, Key.str, Key.name, Atom.toStr] at hq

/-- The hypotheses of `C85_restore_placeholders` can be met: `d` was not saved. -/
theorem C85_restore_placeholders_nonvacuous : ∃ ck r, Saved natCodec exOptions exTree ck ∧
    restore natCodec exOptions ck false (some exPlace) none = some r ∧ RestoredUpToPlaceholders exTree exPlace r := by
  obtain ⟨ck, hs⟩ := exSaved
  obtain ⟨h3, h4⟩ := C85_restore_placeholders natCodec natCodec_faithful exOptions exTree ck exTree_keys exTree_names hs exPlace exPlace_keys
    ⟨[.dict (.str ['d'])], rfl⟩
  obtain ⟨r, h5⟩ := Option.isSome_iff_exists.mp (h3.mpr (by
    intro q
    rw [exPlace_plain, exTree_plain]
    simp only [exPlace, exTree, dictNode, listNode, enumFrom, Forest.ofList, List.map]
    rcases q with _ | ⟨k, q⟩
    · exact .inl rfl
    · by_cases h1 : Key.dict (.str ['a']) = k
      · subst h1
        left
        simp only [Tree.at_, Forest.get, if_true, Option.bind_some]
        exact at_kinds_shape (by rfl) q
      · by_cases h2 : Key.dict (.str ['b']) = k
        · subst h2
          left
          simp only [Tree.at_, Forest.get, h1, if_false, if_true, Option.bind_some]
          exact at_kinds_shape (by rfl) q
        · by_cases h3 : Key.dict (.str ['c']) = k
          · subst h3
            left
            simp only [Tree.at_, Forest.get, h1, h2, if_false, if_true, Option.bind_some]
            exact at_kinds_shape (by rfl) q
          · by_cases h4 : Key.dict (.str ['d']) = k
            · subst h4
              cases q with
              | nil =>
                right
                refine ⟨by simp [Tree.at_, Forest.get], by simp [Tree.at_, Forest.get], ?_⟩
                intro k hk
                exact ⟨_, List.mem_singleton.mp hk⟩
              | cons k q =>
                left
                simp [Tree.at_, Forest.get]
            · left
              simp [Tree.at_, Forest.get, h1, h2, h3, h4]))
  exact ⟨ck, r, hs, h5, h4 r h5⟩

/-- `{'a.b': 1, 'a': {'b': 2}}`: the hypotheses of `C85_equal_names_fails` can be met. -/
def exDots : Tree Nat := dictNode [(['a', '.', 'b'], .leaf 1), (['a'], dictNode [(['b'], .leaf 2)])]

theorem C85_equal_names_nonvacuous : ∃ ck, Saved natCodec exOptions exDots ck ∧
    ∀ r, restore natCodec exOptions ck false none none = some r → ¬ SameValue r (Tree.expected exDots).plain := by
  have hk : exDots.KeysOk := by
    simp only [exDots, dictNode, Forest.ofList, List.map, Tree.KeysOk, Forest.KeysOk, Forest.keys, and_true, true_and]
    exact ⟨.inl (by decide), .inl (by decide)⟩
  obtain ⟨ck, hs⟩ := (C85_save natCodec exOptions exDots hk).mpr ⟨fun k h => (by cases h), fun p v _ => ⟨_, rfl⟩⟩
  refine ⟨ck, hs, ?_⟩
  intro r hr
  exact C85_equal_names_fails natCodec natCodec_faithful exOptions exDots ck false hk hs [.dict (.str ['a', '.', 'b'])]
    [.dict (.str ['a']), .dict (.str ['b'])] 1 2 rfl rfl (by decide) rfl (by decide) r hr

/-- `{'a': 1}` saved and `{'a': {}}` asked for, and the other way round. -/
theorem C85_empty_nonvacuous : (∃ ck r, Saved natCodec exOptions (dictNode [(['a'], .leaf 1)]) ck ∧
      restore natCodec exOptions ck false (some (dictNode [(['a'], emptyDict)])) none = some r ∧ r.at_ [.dict (.str ['a'])] = some emptyDict) ∧
    ∃ ck r, Saved natCodec exOptions (dictNode [(['a'], emptyDict)]) ck ∧
      restore natCodec exOptions ck false (some (dictNode [(['a'], .leaf (some 1))])) none = some r ∧ r.at_ [.dict (.str ['a'])] = some emptyDict := by
  have hk1 : ∀ {α} (a : α), (dictNode [(['a'], .leaf a)] : Tree α).KeysOk := by
    intro α a
    simp only [dictNode, Forest.ofList, List.map, Tree.KeysOk, Forest.KeysOk, Forest.keys, and_true]
    exact .inl (by decide)
  have hk2 : ∀ {α}, (dictNode [(['a'], emptyDict)] : Tree α).KeysOk := by
    intro α
    simp only [dictNode, emptyDict, Forest.ofList, List.map, Tree.KeysOk, Forest.KeysOk, Forest.keys, and_true]
    exact ⟨.inl (by decide), .inl (by decide)⟩
  have hsim : ∀ {α β} (a : α), Similar (dictNode [(['a'], .leaf a)] : Tree α) (dictNode [(['a'], emptyDict)] : Tree β) := by
    intro α β a q
    rcases q with _ | ⟨k, q⟩
    · rfl
    · show ((dictNode [(['a'], Tree.leaf a)]).at_ _).map _ = ((dictNode [(['a'], emptyDict)]).at_ _).map _
      by_cases h : Key.dict (.str ['a']) = k
      · subst h
        cases q with
        | nil => rfl
        | cons => rfl
      · simp [dictNode, Forest.ofList, Tree.at_, Forest.get, h]
  constructor
  · obtain ⟨ck, hs⟩ := (C85_save natCodec exOptions (dictNode [(['a'], .leaf 1)]) (hk1 _)).mpr ⟨fun k h => (by cases h), fun p v _ => ⟨_, rfl⟩⟩
    obtain ⟨r, h1, h2⟩ := C85_empty_item_fails natCodec natCodec_faithful exOptions _ ck (hk1 1) (by decide) hs (dictNode [(['a'], emptyDict)]) hk2 (by
      intro p hp
      have := (Tree.flat_spec false _ (keysOk_distinct _ hk2) p _).mpr ⟨hp, rfl, fun _ => ⟨_, rfl⟩⟩
      simp [dictNode, emptyDict, Forest.ofList, Tree.flat, Forest.flat, Forest.isEmpty] at this)
      (fun q => (hsim 1 q).symm) [.dict (.str ['a'])] .dict rfl
    exact ⟨ck, r, hs, h1, h2⟩
  · obtain ⟨ck, hs⟩ := (C85_save natCodec exOptions (dictNode [(['a'], emptyDict)]) hk2).mpr ⟨fun k h => (by cases h), fun p v _ => ⟨_, rfl⟩⟩
    obtain ⟨r, h1, h2⟩ := C85_empty_saved_fails natCodec natCodec_faithful exOptions _ ck hk2 (by decide) hs (dictNode [(['a'], .leaf (some 1))]) (hk1 _) (by
      intro p hp
      have := (Tree.flat_spec false _ (keysOk_distinct _ (hk1 (some 1))) p _).mpr ⟨hp, rfl, fun _ => ⟨_, rfl⟩⟩
      simp [dictNode, Forest.ofList, Tree.flat, Forest.flat, Forest.isEmpty] at this)
      (hsim (some 1)) [.dict (.str ['a'])] [.dict (.str ['a'])] 1 .dict (.inl rfl) rfl rfl rfl
    exact ⟨ck, r, hs, h1, h2⟩

end Verif.PyTree
