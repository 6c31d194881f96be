import Verif.PyTree.Model
import Verif.Metadata.NestedProps
import Verif.Trees.DiffProps
import Verif.Trees.TrimProps
import Verif.Trees.TransformProps

/-!
# Lemmas for saving and restoring trees
-/

namespace Verif.PyTree

open Verif Verif.Trees Verif.TreeMetadata

/-! ### What is written -/

def writeOf {V D} (C : Codec V D) (x : List Key × Tree V) : Option (Name × D) := match x.2 with
  | .leaf v => some (paramName x.1, C.write v)
  | .node _ _ => none

theorem writes_eq {V D} (C : Codec V D) : ∀ (l : List (List Key × Tree V)) (ws : List (Name × D)), writes C l = some ws →
    ws = l.filterMap (writeOf C) ∧ ∀ x ∈ l, ∀ v, x.2 = .leaf v → (C.typestr v).isSome = true
  | [], ws, h => by
    simp only [writes, Option.some.injEq] at h
    subst h
    simp
  | (p, .leaf v) :: l, ws, h => by
    simp only [writes] at h
    cases hc : C.typestr v with
    | none => simp [hc] at h
    | some s =>
      simp only [hc, Option.map_eq_some_iff] at h
      obtain ⟨r, hr, rfl⟩ := h
      obtain ⟨h1, h2⟩ := writes_eq C l r hr
      refine ⟨by simp [writeOf, ← h1], ?_⟩
      intro x hx w hw
      rcases List.mem_cons.mp hx with rfl | hx
      · cases hw; simp [hc]
      · exact h2 x hx w hw
  | (p, .node k f) :: l, ws, h => by
    simp only [writes] at h
    obtain ⟨h1, h2⟩ := writes_eq C l ws h
    refine ⟨by rw [List.filterMap_cons_none rfl]; exact h1, ?_⟩
    intro x hx w hw
    rcases List.mem_cons.mp hx with rfl | hx
    · cases hw
    · exact h2 x hx w hw

theorem writes_some {V D} (C : Codec V D) : ∀ (l : List (List Key × Tree V)), (∀ x ∈ l, ∀ v, x.2 = .leaf v → (C.typestr v).isSome = true) →
    ∃ ws, writes C l = some ws
  | [], _ => ⟨[], rfl⟩
  | (p, .leaf v) :: l, h => by
    obtain ⟨ws, hw⟩ := writes_some C l (fun x hx => h x (List.mem_cons_of_mem _ hx))
    obtain ⟨s, hs⟩ := Option.isSome_iff_exists.mp (h (p, .leaf v) List.mem_cons_self v rfl)
    exact ⟨(paramName p, C.write v) :: ws, by simp [writes, hs, hw]⟩
  | (p, .node k f) :: l, h => by
    obtain ⟨ws, hw⟩ := writes_some C l (fun x hx => h x (List.mem_cons_of_mem _ hx))
    exact ⟨ws, by simp [writes, hw]⟩

mutual
theorem flat_leaves {α} : ∀ t : Tree α, t.flat false = (t.flat true).filter fun x => match x.2 with
    | .leaf _ => true
    | .node _ _ => false
  | .leaf a => by simp [Tree.flat]
  | .node k .nil => by simp [Tree.flat, Forest.flat, Forest.isEmpty]
  | .node k (.cons k' t r) => by
    have := flatF_leaves (.cons k' t r)
    simpa [Tree.flat, Forest.isEmpty] using this
theorem flatF_leaves {α} : ∀ f : Forest α, f.flat false = (f.flat true).filter fun x => match x.2 with
    | .leaf _ => true
    | .node _ _ => false
  | .nil => rfl
  | .cons k t r => by
    simp only [Forest.flat, List.filter_append, flat_leaves t, flatF_leaves r, List.filter_map]
    rfl
end

theorem mem_flat_leaf {α} {t : Tree α} {x : List Key × Tree α} : x ∈ t.flat false ↔ x ∈ t.flat true ∧ ∃ a, x.2 = .leaf a := by
  rw [flat_leaves, List.mem_filter]
  constructor
  · rintro ⟨h1, h2⟩
    obtain ⟨p, y⟩ := x
    cases y with
    | leaf a => exact ⟨h1, a, rfl⟩
    | node => simp at h2
  · rintro ⟨h1, a, h2⟩
    exact ⟨h1, by simp [h2]⟩

theorem writes_names {V D} (C : Codec V D) (t : Tree V) : ((t.flat true).filterMap (writeOf C)).map (·.1) = paramNames false t := by
  simp only [paramNames, flat_leaves]
  generalize t.flat true = l
  induction l with
  | nil => rfl
  | cons x l ih =>
    obtain ⟨p, y⟩ := x
    cases y with
    | leaf a => simp [writeOf, ih]
    | node => rw [List.filterMap_cons_none rfl]; simp [ih]

theorem putAll_eq {D} (ws : List (Name × D)) (h : (ws.map (·.1)).Nodup) : putAll ws = ws := by
  have := foldl_put ws [] h (by simp [Assoc.keys])
  simpa [putAll] using this

/-- With different names every parameter holds what was written under its name. -/
theorem params_get {V D} (C : Codec V D) (t : Tree V) (hn : (paramNames false t).Nodup) (ws ws' : List (Name × D))
    (hw : writes C (t.flat true) = some ws) (hp : ws'.Perm ws) (x : List Key × Tree V) (hx : x ∈ t.flat true) (v : V) (hv : x.2 = .leaf v) :
    Assoc.get (putAll ws') (paramName x.1) = some (C.write v) := by
  obtain ⟨rfl, -⟩ := writes_eq C _ _ hw
  have hn' : (ws'.map (·.1)).Nodup := by
    rw [(hp.map _).nodup_iff, writes_names]
    exact hn
  rw [putAll_eq _ hn']
  have : (paramName x.1, C.write v) ∈ ws' := by
    rw [hp.mem_iff, List.mem_filterMap]
    exact ⟨x, hx, by simp [writeOf, hv]⟩
  exact get_of_nodup hn' this

/-! ### The metadata -/

/-- The type string of a leaf or empty node. -/
def typeOf {V D} (C : Codec V D) : Tree V → Name
  | .leaf v => (C.typestr v).getD tNone
  | .node k _ => emptyTypestr k

/-- The metadata of a leaf or empty node. -/
def valueOf {V D} (C : Codec V D) (t : Tree V) : Value := ⟨typeOf C t, isEmptyType (typeOf C t), none⟩

theorem infosF_keys {V D} (C : Codec V D) : ∀ f : Forest V, (Forest.infos C f).keys = f.keys
  | .nil => rfl
  | .cons k t r => by simp [Forest.infos, Forest.keys, infosF_keys C r]

theorem infosF_isEmpty {V D} (C : Codec V D) (f : Forest V) : (Forest.infos C f).isEmpty = f.isEmpty := by cases f <;> rfl

mutual
theorem infos_flat {V D} (C : Codec V D) : ∀ t : Tree V,
    (Tree.infos C t).flat true = (t.flat true).map fun x => (x.1, .leaf ⟨some (typeOf C x.2), none⟩)
  | .leaf v => by simp [Tree.infos, Tree.flat, typeOf]
  | .node k .nil => by simp [Tree.infos, Forest.isEmpty, Tree.flat, typeOf]
  | .node k (.cons k' t r) => by
    have := infosF_flat C (.cons k' t r)
    simpa [Tree.infos, Forest.infos, Forest.isEmpty, Tree.flat] using this
theorem infosF_flat {V D} (C : Codec V D) : ∀ f : Forest V,
    (Forest.infos C f).flat true = (f.flat true).map fun x => (x.1, .leaf ⟨some (typeOf C x.2), none⟩)
  | .nil => rfl
  | .cons k t r => by
    simp [Forest.infos, Forest.flat, infos_flat C t, infosF_flat C r, Function.comp_def]
end

mutual
theorem infos_keysOk {V D} (C : Codec V D) : ∀ t : Tree V, t.KeysOk → (Tree.infos C t).KeysOk
  | .leaf v, _ => trivial
  | .node k f, h => by
    simp only [Tree.infos]
    split
    · trivial
    · exact ⟨by rw [infosF_keys]; exact h.1, infosF_keysOk C f h.2⟩
theorem infosF_keysOk {V D} (C : Codec V D) : ∀ f : Forest V, f.KeysOk → (Forest.infos C f).KeysOk
  | .nil, _ => trivial
  | .cons k t r, h => ⟨infos_keysOk C t h.1, infosF_keysOk C r h.2⟩
end

theorem clipF_isEmpty {α} (ph : α → Bool) (f : Forest α) : (Forest.clip ph f).isEmpty = f.isEmpty := by cases f <;> rfl

theorem clipF_keys {α} (ph : α → Bool) : ∀ f : Forest α, (Forest.clip ph f).keys = f.keys
  | .nil => rfl
  | .cons k t r => by simp [Forest.clip, Forest.keys, clipF_keys ph r]

mutual
theorem infos_shape {V D} (C : Codec V D) : ∀ t : Tree V, (Tree.infos C t).shape = (Tree.clip (fun _ => false) t).shape
  | .leaf v => rfl
  | .node k f => by
    simp only [Tree.infos, Tree.clip]
    split
    · rfl
    · simp [Tree.shape, infosF_shape C f]
theorem infosF_shape {V D} (C : Codec V D) : ∀ f : Forest V, (Forest.infos C f).shape = (Forest.clip (fun _ => false) f).shape
  | .nil => rfl
  | .cons k t r => by simp [Forest.infos, Forest.clip, Forest.shape, infos_shape C t, infosF_shape C r]
end

mutual
theorem mapLeaf_shape {α β} (g : α → Option β) : ∀ (t : Tree α) (t' : Tree β), Tree.mapLeaf g t = some t' → t'.shape = t.shape
  | .leaf a, t', h => by
    simp only [Tree.mapLeaf, Option.map_eq_some_iff] at h
    obtain ⟨b, hb, rfl⟩ := h
    rfl
  | .node k .nil, t', h => by simp [Tree.mapLeaf] at h
  | .node k (.cons key t r), t', h => by
    simp only [Tree.mapLeaf, Option.map_eq_some_iff] at h
    obtain ⟨f', hf, rfl⟩ := h
    simp [Tree.shape, mapLeafF_shape g _ f' hf]
theorem mapLeafF_shape {α β} (g : α → Option β) : ∀ (f : Forest α) (f' : Forest β), Forest.mapLeaf g f = some f' → f'.shape = f.shape
  | .nil, f', h => by
    simp only [Forest.mapLeaf, Option.some.injEq] at h
    subst h
    rfl
  | .cons k t r, f', h => by
    simp only [Forest.mapLeaf, Option.bind_eq_bind, Option.bind_eq_some_iff, Option.pure_def, Option.some.injEq] at h
    obtain ⟨t', ht, r', hr, rfl⟩ := h
    simp [Forest.shape, mapLeaf_shape g t t' ht, mapLeafF_shape g r r' hr]
end

mutual
theorem plain_shape {α} : ∀ t : Tree α, t.plain.shape = t.shape.plain
  | .leaf a => rfl
  | .node k .nil => rfl
  | .node k (.cons key t r) => by
    simp only [Tree.plain, Tree.shape, Forest.shape]
    split
    · simp [Tree.shape, Forest.shape, plain_shape t, plainDict_shape r]
    · simp [Tree.shape, Forest.shape, plain_shape t, plainList_shape r 1]
theorem plainDict_shape {α} : ∀ f : Forest α, f.plainDict.shape = f.shape.plainDict
  | .nil => rfl
  | .cons k t r => by simp [Forest.plainDict, Forest.shape, plain_shape t, plainDict_shape r]
theorem plainList_shape {α} : ∀ (f : Forest α) (i : Nat), (f.plainList i).shape = f.shape.plainList i
  | .nil, _ => rfl
  | .cons k t r, i => by simp [Forest.plainList, Forest.shape, plain_shape t, plainList_shape r (i + 1)]
end

mutual
theorem clip_plain {α} (ph : α → Bool) : ∀ t : Tree α, Tree.clip ph t.plain = (Tree.clip ph t).plain
  | .leaf a => rfl
  | .node k .nil => rfl
  | .node k (.cons key t r) => by
    simp only [Tree.plain, Tree.clip, Forest.isEmpty, Bool.false_eq_true, if_false, Forest.clip]
    split
    · simp [Tree.clip, Forest.clip, Forest.isEmpty, clip_plain ph t, clip_plainDict ph r]
    · simp [Tree.clip, Forest.clip, Forest.isEmpty, clip_plain ph t, clip_plainList ph r 1]
theorem clip_plainDict {α} (ph : α → Bool) : ∀ f : Forest α, Forest.clip ph f.plainDict = (Forest.clip ph f).plainDict
  | .nil => rfl
  | .cons k t r => by simp [Forest.plainDict, Forest.clip, clip_plain ph t, clip_plainDict ph r]
theorem clip_plainList {α} (ph : α → Bool) : ∀ (f : Forest α) (i : Nat), Forest.clip ph (f.plainList i) = (Forest.clip ph f).plainList i
  | .nil, _ => rfl
  | .cons k t r, i => by simp [Forest.plainList, Forest.clip, clip_plain ph t, clip_plainList ph r (i + 1)]
end

theorem clipF_get {α} (ph : α → Bool) (k : Key) : ∀ f : Forest α, (Forest.clip ph f).get k = (f.get k).map (Tree.clip ph)
  | .nil => rfl
  | .cons k' t r => by
    simp only [Forest.clip, Forest.get]
    split
    · rfl
    · exact clipF_get ph k r

theorem clip_at {α} (ph : α → Bool) : ∀ (p : List Key) (t : Tree α), (Tree.clip ph t).at_ p = (t.at_ p).map (Tree.clip ph)
  | [], t => by cases t <;> rfl
  | k :: p, .leaf a => rfl
  | k :: p, .node kd f => by
    simp only [Tree.clip]
    split
    · next h =>
      rw [Forest.isEmpty_iff] at h
      subst h
      rfl
    · simp only [Tree.at_, clipF_get]
      cases f.get k with
      | none => rfl
      | some c => exact clip_at ph p c

/-- What is at a path: nothing, a leaf or an empty node (`some none`), or a node of some kind. -/
def nodeKind {α} : Tree α → Option Kind
  | .leaf _ => none
  | .node k f => if f.isEmpty then none else some k

theorem keysOk_distinct_keys {l : List Key} (h : Trees.KeysOk l) : (l.map Key.str).Nodup := by
  rcases h with ⟨-, h⟩ | ⟨-, h⟩ | h | h
  · exact h
  · exact h
  all_goals
    have hmem := seqFrom_mem 0 l h
    have key : ∀ (c : Nat → Key) (hc : ∀ i, (c i).str = NameFormat.dec i) (l : List Key) (j : Nat), SeqFrom c j l → (l.map Key.str).Nodup := by
      intro c hc l
      induction l with
      | nil => intro j _; simp
      | cons k l ih =>
        intro j hj
        obtain ⟨rfl, hj'⟩ := hj
        simp only [List.map_cons, List.nodup_cons]
        refine ⟨?_, ih _ hj'⟩
        intro hm
        obtain ⟨k', hk', e⟩ := List.mem_map.mp hm
        obtain ⟨m, h1, -, rfl⟩ := seqFrom_mem _ _ hj' k' hk'
        rw [hc, hc] at e
        have := congrArg NameFormat.intOf e
        rw [NameFormat.intOf_dec, NameFormat.intOf_dec] at this
        omega
    refine key _ ?_ l 0 h
    intro i
    simp only [Key.str, Key.name, Atom.toStr, NameFormat.showInt]
    rw [if_neg (by omega)]; rfl

mutual
theorem keysOk_distinct {α} : ∀ t : Tree α, t.KeysOk → t.Distinct
  | .leaf _, _ => trivial
  | .node _ f, h => ⟨keysOk_distinct_keys h.1, keysOkF_distinct f h.2⟩
theorem keysOkF_distinct {α} : ∀ f : Forest α, f.KeysOk → f.Distinct
  | .nil, _ => trivial
  | .cons _ t r, h => ⟨keysOk_distinct t h.1, keysOkF_distinct r h.2⟩
end

/-! ### Plain trees -/

mutual
/-- Dictionaries with string keys, lists and empty nodes. -/
def Tree.Pl {α} : Tree α → Prop
  | .leaf _ => True
  | .node kd f => (f = .nil ∨ (kd = .dict ∧ (∀ k ∈ f.keys, ∃ s, k = .dict (.str s)) ∧ f.keys.Nodup) ∨ (kd = .list ∧ SeqFrom Key.seq 0 f.keys)) ∧
      Forest.Pl f
def Forest.Pl {α} : Forest α → Prop
  | .nil => True
  | .cons _ t r => Tree.Pl t ∧ Forest.Pl r
end

theorem pl_child {α} : ∀ {f : Forest α} {k : Key} {t : Tree α}, Forest.Pl f → f.get k = some t → Tree.Pl t
  | .nil, _, _, _, h => by simp [Forest.get] at h
  | .cons k2 t2 r, k, t, hn, h => by
    simp only [Forest.get] at h
    split at h
    · cases h; exact hn.1
    · exact pl_child hn.2 h

mutual
theorem norm_pl {α} : ∀ t : Tree α, Tree.Norm t → Tree.Pl t
  | .leaf _, _ => trivial
  | .node _ f, h => ⟨.inr h.2.1, normF_pl f h.2.2⟩
theorem normF_pl {α} : ∀ f : Forest α, Forest.Norm f → Forest.Pl f
  | .nil, _ => trivial
  | .cons _ t r, h => ⟨norm_pl t h.1, normF_pl r h.2⟩
end

mutual
theorem plain_pl {α} : ∀ t : Tree α, t.KeysOk → Tree.Pl t.plain
  | .leaf _, _ => trivial
  | .node kd .nil, _ => ⟨.inl rfl, trivial⟩
  | .node kd (.cons k t r), hk => by
    have hf := plainF_pl r hk.2.2
    rcases hk.1.split with ⟨h1, h2⟩ | ⟨c, h1, h2⟩
    · have hd := h1 k (by simp [Forest.keys])
      simp only [Tree.plain, hd, if_true]
      refine ⟨.inr (.inl ⟨rfl, ?_, ?_⟩), plain_pl t hk.2.1, hf.1⟩
      · intro k' hk'
        change k' ∈ (Forest.cons k t r).plainDict.keys at hk'
        rw [plainDict_keys] at hk'
        obtain ⟨k0, -, rfl⟩ := List.mem_map.mp hk'
        exact ⟨_, rfl⟩
      · change (Forest.cons k t r).plainDict.keys.Nodup
        rw [plainDict_keys]
        refine List.pairwise_map.mpr ((List.pairwise_map.mp h2).imp ?_)
        intro a b hab e
        simp only [Key.dict.injEq, Atom.str.injEq] at e
        exact hab e
    · have hd : k.isDict = false := by
        have := h2.1
        rw [this]
        exact (h1 0).1
      simp only [Tree.plain, hd, Bool.false_eq_true, if_false]
      exact ⟨.inr (.inr ⟨rfl, plainList_keys (.cons k t r) 0⟩), plain_pl t hk.2.1, hf.2 1⟩
theorem plainF_pl {α} : ∀ f : Forest α, f.KeysOk → Forest.Pl f.plainDict ∧ ∀ i, Forest.Pl (f.plainList i)
  | .nil, _ => ⟨trivial, fun _ => trivial⟩
  | .cons _ t r, h => ⟨⟨plain_pl t h.1, (plainF_pl r h.2).1⟩, fun i => ⟨plain_pl t h.1, (plainF_pl r h.2).2 (i + 1)⟩⟩
end

theorem nth_get {α} : ∀ (f : Forest α) (j i : Nat), SeqFrom Key.seq j f.keys → f.get (.seq (j + i)) = f.nth i
  | .nil, _, _, _ => rfl
  | .cons k t r, j, i, h => by
    have hk : k = .seq j := h.1
    subst hk
    cases i with
    | zero => simp [Forest.get, Forest.nth]
    | succ i =>
      simp only [Forest.get, Forest.nth]
      rw [if_neg (by simp), ← nth_get r (j + 1) i h.2]
      congr 2
      omega

/-- What a plain tree has at a path is found with the keys of any tree that becomes it. -/
theorem walk_of_at {α} : ∀ (p : List Key) (t v : Tree α), Tree.Pl t → t.at_ (p.map normKey) = some v → walk t p = some v
  | [], t, v, _, h => by cases t <;> exact h
  | k :: p, .leaf a, v, _, h => by cases h
  | k :: p, .node kd f, v, hp, h => by
    simp only [List.map_cons, Tree.at_, Option.bind_eq_some_iff] at h
    obtain ⟨c, hc, h⟩ := h
    have ih := walk_of_at p c v (pl_child hp.2 hc) h
    have hmem := Forest.get_mem hc
    simp only [walk]
    rcases hp.1 with rfl | ⟨rfl, h1, -⟩ | ⟨rfl, h1⟩
    · simp [Forest.get] at hc
    · obtain ⟨s, hs⟩ := h1 _ hmem
      have hd : k.isDict = true := by
        cases hd : k.isDict with
        | true => rfl
        | false => simp [normKey, hd] at hs
      have hname : k.name = .str k.str := by
        cases k <;> simp_all [Key.isDict, Key.name, Key.str, Atom.toStr]
      simp only [normKey, hd, if_true] at hc
      simp only [lookUp, hname, hc, Option.bind_some, ih]
    · obtain ⟨i, -, -, hs⟩ := seqFrom_mem 0 _ h1 _ hmem
      have hd : k.isDict = false := by
        cases hd : k.isDict with
        | false => rfl
        | true => simp [normKey, hd] at hs
      simp only [normKey, hd, Bool.false_eq_true, if_false, Key.seq.injEq] at hs
      have hname : k.name = .int (.ofNat i) := by
        cases k <;> simp_all [Key.isDict, Key.name, Key.idx]
      have hg := nth_get f 0 i h1
      rw [Nat.zero_add] at hg
      simp only [normKey, hd, Bool.false_eq_true, if_false, hs, hg] at hc
      simp only [lookUp, hname, hc, Option.bind_some, ih]

theorem normKey_str (k : Key) : (normKey k).str = k.str := by
  cases k <;> rfl

theorem strPath_norm (p : List Key) : strPath (p.map normKey) = strPath p := by
  simp [strPath, Function.comp_def, normKey_str]

mutual
theorem pl_keysOk {α} : ∀ t : Tree α, Tree.Pl t → t.KeysOk
  | .leaf _, _ => trivial
  | .node kd f, h => by
    refine ⟨?_, plF_keysOk f h.2⟩
    rcases h.1 with rfl | ⟨-, h2, h3⟩ | ⟨-, h2⟩
    · exact .inl ⟨by simp [Forest.keys], by simp [Forest.keys]⟩
    · refine .inl ⟨?_, ?_⟩
      · intro k hk
        obtain ⟨s, rfl⟩ := h2 k hk
        rfl
      · refine List.pairwise_map.mpr (h3.imp_of_mem ?_)
        intro a b ha hb hab e
        obtain ⟨s, rfl⟩ := h2 a ha
        obtain ⟨u, rfl⟩ := h2 b hb
        simp only [Key.str, Key.name, Atom.toStr] at e
        exact hab (by rw [e])
    · exact .inr (.inr (.inl h2))
theorem plF_keysOk {α} : ∀ f : Forest α, Forest.Pl f → f.KeysOk
  | .nil, _ => trivial
  | .cons _ t r, h => ⟨pl_keysOk t h.1, plF_keysOk r h.2⟩
end

/-- The leaves and empty nodes of the plain form. -/
theorem plain_at_iff {α} (t : Tree α) (h : t.KeysOk) (q : List Key) (v : Tree α) (hv : v.emptyOrLeaf = true) :
    t.plain.at_ q = some v ↔ ∃ x ∈ t.flat true, x.1.map normKey = q ∧ x.2 = v := by
  have hd := keysOk_distinct _ (pl_keysOk _ (plain_pl t h))
  have hs := t.plain.flat_spec true hd q v
  rw [plain_flat t h, List.mem_map] at hs
  constructor
  · intro he
    obtain ⟨x, hx, e⟩ := hs.mpr ⟨he, hv, by simp⟩
    cases e
    exact ⟨x, hx, rfl, rfl⟩
  · rintro ⟨x, hx, rfl, rfl⟩
    exact (hs.mp ⟨x, hx, rfl⟩).1

/-! ### Relabelling keeps the empty nodes -/

/-- A leaf gets a label, an empty node stays. -/
def setLeaf {α β} (b : β) : Tree α → Tree β
  | .leaf _ => .leaf b
  | .node k _ => .node k .nil

theorem relabelF_isEmpty {α β} (h : List Key → β) (f : Forest α) (p : List Key) : (f.relabel h p).isEmpty = f.isEmpty := by cases f <;> rfl

mutual
theorem relabel_flat_keep {α β} (h : List Key → β) : ∀ (t : Tree α) (p : List Key),
    (t.relabel h p).flat true = (t.flat true).map fun x => (x.1, setLeaf (h (p ++ x.1)) x.2)
  | .leaf a, p => by simp [Tree.relabel, Tree.flat, setLeaf]
  | .node k .nil, p => by simp [Tree.relabel, Forest.relabel, Tree.flat, setLeaf, Forest.isEmpty]
  | .node k (.cons k' t r), p => by
    have := relabelF_flat_keep h (.cons k' t r) p
    simpa [Tree.relabel, Forest.relabel, Tree.flat, Forest.isEmpty] using this
theorem relabelF_flat_keep {α β} (h : List Key → β) : ∀ (f : Forest α) (p : List Key),
    (f.relabel h p).flat true = (f.flat true).map fun x => (x.1, setLeaf (h (p ++ x.1)) x.2)
  | .nil, p => rfl
  | .cons k t r, p => by
    simp only [Forest.relabel, Forest.flat, relabel_flat_keep h t, relabelF_flat_keep h r, List.map_append, List.map_map]
    congr 1
    apply List.map_congr_left
    intro x _
    simp
end

theorem relabel_at {α β} (h : List Key → β) (t : Tree α) (hd : t.Distinct) (x : List Key × Tree α) (hx : x ∈ t.flat true) :
    (t.relabel h []).at_ x.1 = some (setLeaf (h x.1) x.2) := by
  have hs := (t.relabel h []).flat_spec true (relabel_distinct h t [] hd) x.1 (setLeaf (h x.1) x.2)
  rw [relabel_flat_keep, List.mem_map] at hs
  exact (hs.mp ⟨x, hx, rfl⟩).1

/-! ### Reading -/

/-- What restoring gives for a leaf: `m` is its metadata and `r` its arguments. -/
def leafResult {V D} (C : Codec V D) (params : List (Name × D)) (p : List Key) (m : Option P) (r : RArg) : Option (Tree (Option V)) :=
  match readLeaf C params p (.leaf m) (some (.leaf r)) with
  | none => none
  | some (some v) => some (.leaf (some v))
  | some none => fillIn (.leaf m)

theorem readAll_none {V D} (C : Codec V D) (params : List (Name × D)) (args : Tree RArg) : ∀ (l : List (List Key × Tree (Option P))) d,
    (∃ x ∈ l, readLeaf C params x.1 x.2 (args.at_ x.1) = none) → readAll C params args l d = none
  | [], d, ⟨x, hx, _⟩ => by cases hx
  | (p, m) :: l, d, ⟨x, hx, h⟩ => by
    simp only [readAll]
    rcases List.mem_cons.mp hx with rfl | hx
    · simp only [h]
    · cases readLeaf C params p m (args.at_ p) with
      | none => rfl
      | some o => cases o <;> exact readAll_none C params args l _ ⟨x, hx, h⟩

theorem readAll_some {V D} (C : Codec V D) (params : List (Name × D)) (args : Tree RArg) (g : List Key → Option V) :
    ∀ (l : List (List Key × Tree (Option P))) d, (l.map fun x => strPath x.1).Nodup →
    (∀ x ∈ l, readLeaf C params x.1 x.2 (args.at_ x.1) = some (g x.1)) →
    ∃ d', readAll C params args l d = some d' ∧ (∀ x ∈ l, Assoc.get d' (strPath x.1) = ((g x.1).map fun v => .leaf (some v)).or (Assoc.get d (strPath x.1))) ∧
      ∀ n, n ∉ l.map (fun x => strPath x.1) → Assoc.get d' n = Assoc.get d n
  | [], d, _, _ => ⟨d, rfl, by simp, by simp⟩
  | (p, m) :: l, d, hn, h => by
    simp only [List.map_cons, List.nodup_cons] at hn
    have h0 := h (p, m) List.mem_cons_self
    simp only at h0
    simp only [readAll, h0]
    have hx : ∀ x ∈ l, strPath x.1 ≠ strPath p := fun x hx e => hn.1 (List.mem_map.mpr ⟨x, hx, e⟩)
    cases hg : g p with
    | none =>
      obtain ⟨d', h1, h2, h3⟩ := readAll_some C params args g l d hn.2 (fun x hx => h x (List.mem_cons_of_mem _ hx))
      refine ⟨d', h1, ?_, ?_⟩
      · intro x hx
        rcases List.mem_cons.mp hx with rfl | hx
        · simp only [hg, Option.map_none, Option.none_or]
          exact h3 _ hn.1
        · exact h2 x hx
      · intro n hn'
        simp only [List.map_cons, List.mem_cons, not_or] at hn'
        exact h3 n hn'.2
    | some v =>
      obtain ⟨d', h1, h2, h3⟩ := readAll_some C params args g l (Assoc.put d (strPath p) (.leaf (some v))) hn.2
        (fun x hx => h x (List.mem_cons_of_mem _ hx))
      refine ⟨d', h1, ?_, ?_⟩
      · intro x hx'
        rcases List.mem_cons.mp hx' with rfl | hx'
        · simp only [hg, Option.map_some, Option.some_or]
          rw [h3 _ hn.1, Assoc.get_put_self]
        · rw [h2 x hx', Assoc.get_put_ne _ _ (hx x hx')]
      · intro n hn'
        simp only [List.map_cons, List.mem_cons, not_or] at hn'
        rw [h3 n hn'.2, Assoc.get_put_ne _ _ hn'.1]

theorem fillAll_none {V} : ∀ (l : List (List Name × Tree (Option P))) (d : List (List Name × Tree (Option V))), (l.map (·.1)).Nodup →
    (∃ x ∈ l, Assoc.get d x.1 = none ∧ fillIn (V := V) x.2 = none) → fillAll l d = none
  | [], d, _, ⟨x, hx, _⟩ => by cases hx
  | (n, m) :: l, d, hn, ⟨x, hx, h1, h2⟩ => by
    simp only [List.map_cons, List.nodup_cons] at hn
    simp only [fillAll]
    rcases List.mem_cons.mp hx with rfl | hx
    · simp only [h1, h2]
    · cases Assoc.get d n with
      | some _ => exact fillAll_none l d hn.2 ⟨x, hx, h1, h2⟩
      | none =>
        cases fillIn (V := V) m with
        | none => rfl
        | some v =>
          refine fillAll_none l _ hn.2 ⟨x, hx, ?_, h2⟩
          rw [Assoc.get_put_ne _ _ (fun e => hn.1 (List.mem_map.mpr ⟨x, hx, e⟩))]
          exact h1

theorem fillAll_some {V} : ∀ (l : List (List Name × Tree (Option P))) (d : List (List Name × Tree (Option V))), (l.map (·.1)).Nodup →
    (∀ x ∈ l, Assoc.get d x.1 = none → (fillIn (V := V) x.2).isSome = true) →
    ∃ d', fillAll l d = some d' ∧ ∀ x ∈ l, Assoc.get d' x.1 = (Assoc.get d x.1).or (fillIn x.2)
  | l, d, hn, h => by
    suffices ∃ d', fillAll l d = some d' ∧ (∀ x ∈ l, Assoc.get d' x.1 = (Assoc.get d x.1).or (fillIn x.2)) ∧
        ∀ n, n ∉ l.map (·.1) → Assoc.get d' n = Assoc.get d n from by
      obtain ⟨d', h1, h2, -⟩ := this
      exact ⟨d', h1, h2⟩
    induction l generalizing d with
    | nil => exact ⟨d, rfl, by simp, by simp⟩
    | cons y l ih =>
      obtain ⟨n, m⟩ := y
      simp only [List.map_cons, List.nodup_cons] at hn
      simp only [fillAll]
      have hx : ∀ x ∈ l, x.1 ≠ n := fun x hx e => hn.1 (List.mem_map.mpr ⟨x, hx, e⟩)
      cases hg : Assoc.get d n with
      | some w =>
        obtain ⟨d', h1, h2, h3⟩ := ih d hn.2 (fun x hx => h x (List.mem_cons_of_mem _ hx))
        refine ⟨d', h1, ?_, ?_⟩
        · intro x hx'
          rcases List.mem_cons.mp hx' with rfl | hx'
          · simp only [hg, Option.some_or]; rw [h3 _ hn.1, hg]
          · exact h2 x hx'
        · intro k hk
          simp only [List.map_cons, List.mem_cons, not_or] at hk
          exact h3 k hk.2
      | none =>
        obtain ⟨v, hv⟩ := Option.isSome_iff_exists.mp (h (n, m) List.mem_cons_self hg)
        simp only at hv
        simp only [hv]
        obtain ⟨d', h1, h2, h3⟩ := ih (Assoc.put d n v) hn.2 (by
          intro x hx' he
          rw [Assoc.get_put_ne _ _ (hx x hx')] at he
          exact h x (List.mem_cons_of_mem _ hx') he)
        refine ⟨d', h1, ?_, ?_⟩
        · intro x hx'
          rcases List.mem_cons.mp hx' with rfl | hx'
          · simp only [hg, Option.none_or, hv]; rw [h3 _ hn.1, Assoc.get_put_self]
          · rw [h2 x hx', Assoc.get_put_ne _ _ (hx x hx')]
        · intro k hk
          simp only [List.map_cons, List.mem_cons, not_or] at hk
          rw [h3 k hk.2, Assoc.get_put_ne _ _ hk.1]

mutual
theorem mapPath_congr {α β} (g h : List Key → Option (Tree β)) : ∀ (t : Tree α) (p : List Key),
    (∀ x ∈ t.flat false, g (p ++ x.1) = h (p ++ x.1)) → t.mapPath false g p = t.mapPath false h p
  | .leaf a, p, hg => by
    have := hg ([], .leaf a) (by simp [Tree.flat])
    simpa [Tree.mapPath] using this
  | .node k f, p, hg => by
    simp only [Tree.mapPath, Bool.false_and, Bool.false_eq_true, if_false]
    rw [mapPathF_congr g h f p (by simpa [Tree.flat] using hg)]
theorem mapPathF_congr {α β} (g h : List Key → Option (Tree β)) : ∀ (f : Forest α) (p : List Key),
    (∀ x ∈ f.flat false, g (p ++ x.1) = h (p ++ x.1)) → f.mapPath false g p = f.mapPath false h p
  | .nil, p, hg => rfl
  | .cons k t r, p, hg => by
    simp only [Forest.mapPath]
    rw [mapPath_congr g h t (p ++ [k]) (by
      intro x hx
      have := hg (k :: x.1, x.2) (by
        simp only [Forest.flat, List.mem_append, List.mem_map]
        exact .inl ⟨x, hx, rfl⟩)
      simpa using this)]
    rw [mapPathF_congr g h r p (fun x hx => hg x (by simp [Forest.flat, hx]))]
end

/-- Reading for a tree of metadata and a tree of arguments over the structure of the item. -/
theorem maybeDeserialize_eq {α V D} (C : Codec V D) (params : List (Name × D)) (item : Tree α) (hd : item.Distinct) (m : List Key → Option P)
    (r : List Key → RArg) :
    maybeDeserialize C params item (item.relabel m []) (item.relabel r []) = item.mapPath false (fun p => leafResult C params p (m p) (r p)) [] := by
  have hdm := relabel_distinct m item [] hd
  simp only [maybeDeserialize]
  -- what is read
  have hread : ∀ x ∈ item.flat true, readLeaf C params x.1 (setLeaf (m x.1) x.2) ((item.relabel r []).at_ x.1) =
      match x.2 with
      | .leaf _ => readLeaf C params x.1 (.leaf (m x.1)) (some (.leaf (r x.1)))
      | .node _ _ => some none := by
    intro x hx
    rw [relabel_at r item hd x hx]
    obtain ⟨p, y⟩ := x
    cases y with
    | leaf a => rfl
    | node k f => rfl
  by_cases hbad : ∃ x ∈ item.flat false, readLeaf C params x.1 (.leaf (m x.1)) (some (.leaf (r x.1))) = none
  · obtain ⟨x, hx, hb⟩ := hbad
    obtain ⟨hx', a, ha⟩ := mem_flat_leaf.mp hx
    rw [readAll_none C params _ _ _ ⟨(x.1, setLeaf (m x.1) x.2), by
      rw [relabel_flat_keep, List.mem_map]
      exact ⟨x, hx', rfl⟩, by
      have := hread x hx'
      rw [ha] at this
      simp only [ha]
      rw [this]
      exact hb⟩]
    rw [mapPath_none _ _ _ ⟨x, hx, by simp only [List.nil_append, leafResult, hb]⟩]
    rfl
  · have hgood : ∀ x ∈ item.flat false, ∃ o, readLeaf C params x.1 (.leaf (m x.1)) (some (.leaf (r x.1))) = some o := by
      intro x hx
      cases h : readLeaf C params x.1 (.leaf (m x.1)) (some (.leaf (r x.1))) with
      | none => exact absurd ⟨x, hx, h⟩ hbad
      | some o => exact ⟨o, rfl⟩
    -- empty nodes are not leaves
    have hsep : ∀ x ∈ item.flat true, ∀ y ∈ item.flat true, x.1 = y.1 → x.2 = y.2 := by
      intro x hx y hy e
      have h1 := (item.flat_spec true hd x.1 x.2).mp hx
      have h2 := (item.flat_spec true hd y.1 y.2).mp hy
      rw [e, h2.1] at h1
      exact (Option.some.inj h1.1).symm
    let g : List Key → Option V := fun p => match item.at_ p with
      | some (.leaf _) => (readLeaf C params p (.leaf (m p)) (some (.leaf (r p)))).getD none
      | _ => none
    have hg : ∀ x ∈ (item.relabel m []).flat true, readLeaf C params x.1 x.2 ((item.relabel r []).at_ x.1) = some (g x.1) := by
      intro z hz
      rw [relabel_flat_keep, List.mem_map] at hz
      obtain ⟨x, hx, rfl⟩ := hz
      simp only [List.nil_append]
      rw [hread x hx]
      have h1 := ((item.flat_spec true hd x.1 x.2).mp hx).1
      obtain ⟨p, y⟩ := x
      cases y with
      | leaf a =>
        simp only [g]
        simp only at h1
        rw [h1]
        obtain ⟨o, ho⟩ := hgood (p, .leaf a) (mem_flat_leaf.mpr ⟨hx, a, rfl⟩)
        simp only at ho
        simp only [ho, Option.getD_some]
      | node k f =>
        simp only [g]
        simp only at h1
        rw [h1]
    have hnd := (item.relabel m []).flat_nodup true hdm
    obtain ⟨d1, h1, h2, h3⟩ := readAll_some C params (item.relabel r []) g _ [] hnd hg
    rw [h1]
    simp only [Option.bind_eq_bind, Option.bind_some]
    have hleaf : ∀ x ∈ item.flat false, Assoc.get d1 (strPath x.1) = ((g x.1).map fun v => .leaf (some v)) ∧
        readLeaf C params x.1 (.leaf (m x.1)) (some (.leaf (r x.1))) = some (g x.1) := by
      intro x hx
      obtain ⟨hx', a, ha⟩ := mem_flat_leaf.mp hx
      have hm : (x.1, setLeaf (m ([] ++ x.1)) x.2) ∈ (item.relabel m []).flat true := by
        rw [relabel_flat_keep, List.mem_map]
        exact ⟨x, hx', rfl⟩
      have h4 := h2 _ hm
      have h5 := hg _ hm
      simp only [Assoc.get_nil, Option.or_none] at h4
      refine ⟨h4, ?_⟩
      simp only [List.nil_append, ha, setLeaf] at h5
      rw [relabel_at r item hd x hx', ha] at h5
      exact h5
    have hfl : toFlat false (item.relabel m []) = (item.flat false).map fun x => (strPath x.1, .leaf (m x.1)) := by
      rw [toFlat_eq false _ hdm, relabel_flat, List.map_map]
      rfl
    have hnd2 : (((item.flat false).map fun x => (strPath x.1, (Tree.leaf (m x.1) : Tree (Option P)))).map (·.1)).Nodup := by
      rw [List.map_map]
      exact item.flat_nodup false hd
    rw [hfl]
    by_cases hbad2 : ∃ x ∈ item.flat false, g x.1 = none ∧ fillIn (V := V) (.leaf (m x.1)) = none
    · obtain ⟨x, hx, hb1, hb2⟩ := hbad2
      rw [fillAll_none _ _ hnd2 ⟨(strPath x.1, .leaf (m x.1)), List.mem_map.mpr ⟨x, hx, rfl⟩, by
        simp only [(hleaf x hx).1, hb1, Option.map_none], hb2⟩]
      rw [mapPath_none _ _ _ ⟨x, hx, by simp only [List.nil_append, leafResult, (hleaf x hx).2, hb1]; exact hb2⟩]
      rfl
    · obtain ⟨d2, h6, h7⟩ := fillAll_some _ d1 hnd2 (by
        intro z hz he
        obtain ⟨x, hx, rfl⟩ := List.mem_map.mp hz
        simp only at he ⊢
        rw [(hleaf x hx).1] at he
        cases hc : fillIn (V := V) (.leaf (m x.1)) with
        | some _ => rfl
        | none =>
          refine absurd ⟨x, hx, ?_, hc⟩ hbad2
          cases hgx : g x.1 with
          | none => rfl
          | some v => rw [hgx] at he; cases he)
      rw [h6]
      simp only [Option.bind_some]
      rw [C40_target d2 item hd]
      have hval : ∀ x ∈ item.flat false, Assoc.get d2 (strPath x.1) = leafResult C params x.1 (m x.1) (r x.1) := by
        intro x hx
        have := h7 (strPath x.1, .leaf (m x.1)) (List.mem_map.mpr ⟨x, hx, rfl⟩)
        simp only at this
        rw [this, (hleaf x hx).1]
        simp only [leafResult, (hleaf x hx).2]
        cases g x.1 <;> simp
      exact mapPath_congr _ _ item [] (by
        intro x hx
        simpa using hval x hx)

end Verif.PyTree
