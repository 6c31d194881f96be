import Verif.PyTree.RestoreProps

/-!
# Property C85: restoring a part of a saved tree
-/

namespace Verif.PyTree

open Verif Verif.Trees Verif.TreeMetadata

/-! ### Specification -/

/-- The number of children of a node. -/
def width {α} : Tree α → Nat
  | .leaf _ => 0
  | .node _ f => f.length

/-- What the item may have where the checkpoint has `w`: a leaf or an empty container for a leaf or an empty container; `None` also for a
dictionary; a dictionary for a dictionary, and a list for one of the same length.  An empty object of a registered class only for a container. -/
def Takes {α β} (v : Tree α) (w : Tree β) : Prop := match v with
  | .leaf _ => nodeKind w = none
  | .node k f =>
    if f.isEmpty then match k with
      | .none => nodeKind w ≠ some .list
      | .custom _ => nodeKind w ≠ none
      | _ => nodeKind w = none
    else nodeKind w = some k ∧ (k = .list → width w = f.length)

/-- `r` is the item `i` with the values that `t` has under the same names, and the item's own values where `t` has none. -/
structure PartlyRestored {V} (t : Tree V) (i r : Tree (Option V)) : Prop where
  nodes : ∀ p kd f, i.at_ p = some (.node kd f) → ∃ f', r.at_ p = some (.node kd f') ∧ f'.keys = f.keys
  saved : ∀ p a, i.at_ p = some (.leaf a) → ∀ q u, strPath q = strPath p → t.at_ q = some u → u.emptyOrLeaf = true → r.at_ p = some (Tree.expected u)
  other : ∀ p a, i.at_ p = some (.leaf a) → (∀ q u, strPath q = strPath p → t.at_ q = some u → u.emptyOrLeaf = false) → r.at_ p = some (.leaf a)

/-! ### When trimming succeeds -/

mutual
/-- Dictionaries with string keys and lists that are not empty; `None`s and empty objects of registered classes. -/
def Tree.Zr {α} : Tree α → Prop
  | .leaf _ => True
  | .node kd f => ((f = .nil ∧ (kd = .none ∨ ∃ n, kd = .custom n)) ∨
      (f ≠ .nil ∧ kd = .dict ∧ (∀ k ∈ f.keys, ∃ s, k = .dict (.str s)) ∧ f.keys.Nodup) ∨ (f ≠ .nil ∧ kd = .list ∧ SeqFrom Key.seq 0 f.keys)) ∧
      Forest.Zr f
def Forest.Zr {α} : Forest α → Prop
  | .nil => True
  | .cons _ t r => Tree.Zr t ∧ Forest.Zr r
end

theorem str_nodup_of_dict {l : List Key} (h : ∀ k ∈ l, ∃ s, k = .dict (.str s)) (hn : l.Nodup) : (l.map Key.str).Nodup := by
  refine List.pairwise_map.mpr (hn.imp_of_mem ?_)
  intro a b ha hb hab e
  obtain ⟨s, rfl⟩ := h a ha
  obtain ⟨u, rfl⟩ := h b hb
  simp only [Key.str, Key.name, Atom.toStr] at e
  exact hab (by rw [e])

theorem str_nodup_of_seq {l : List Key} (h : SeqFrom Key.seq 0 l) : (l.map Key.str).Nodup := keysOk_distinct_keys (.inr (.inr (.inl h)))

mutual
theorem zr_wf {α} : ∀ t : Tree α, Tree.Zr t → t.Wf ∧ t.NoNamed
  | .leaf _, _ => ⟨trivial, trivial⟩
  | .node kd f, h => by
    obtain ⟨h1, h2⟩ := zrF_wf f h.2
    rcases h.1 with ⟨rfl, rfl | ⟨n, rfl⟩⟩ | ⟨-, rfl, h3, h4⟩ | ⟨-, rfl, h3⟩
    · exact ⟨⟨rfl, by simp [Forest.keys], h1⟩, by simp, h2⟩
    · exact ⟨⟨trivial, by simp [Forest.keys], h1⟩, by simp, h2⟩
    · exact ⟨⟨h3, str_nodup_of_dict h3 h4, h1⟩, by simp, h2⟩
    · exact ⟨⟨h3, str_nodup_of_seq h3, h1⟩, by simp, h2⟩
theorem zrF_wf {α} : ∀ f : Forest α, Forest.Zr f → f.Wf ∧ f.NoNamed
  | .nil, _ => ⟨trivial, trivial⟩
  | .cons _ t r, h => ⟨⟨(zr_wf t h.1).1, (zrF_wf r h.2).1⟩, (zr_wf t h.1).2, (zrF_wf r h.2).2⟩
end

mutual
theorem norm_zr {α} : ∀ t : Tree α, Tree.Norm t → Tree.Zr t
  | .leaf _, _ => trivial
  | .node kd f, h => by
    refine ⟨.inr ?_, normF_zr f h.2.2⟩
    rcases h.2.1 with h2 | h2
    · exact .inl ⟨h.1, h2⟩
    · exact .inr ⟨h.1, h2⟩
theorem normF_zr {α} : ∀ f : Forest α, Forest.Norm f → Forest.Zr f
  | .nil, _ => trivial
  | .cons _ t r, h => ⟨norm_zr t h.1, normF_zr r h.2⟩
end

theorem zerosF_keys {α} : ∀ f : Forest α, (Forest.zeros f).keys = f.keys
  | .nil => rfl
  | .cons k t r => by simp [Forest.zeros, Forest.keys, zerosF_keys r]

mutual
theorem zeros_zr {α} : ∀ t : Tree α, Tree.Pl t → Tree.Zr (Tree.zeros t)
  | .leaf _, _ => trivial
  | .node kd .nil, _ => by
    simp only [Tree.zeros, Forest.isEmpty, if_true]
    cases kd <;> simp [isContainer, Tree.Zr, Forest.Zr]
  | .node kd (.cons k t r), h => by
    have := zerosF_zr (.cons k t r) h.2
    simp only [Tree.zeros, Forest.isEmpty, Bool.false_eq_true, if_false]
    refine ⟨.inr ?_, this⟩
    have hk := zerosF_keys (.cons k t r)
    rw [hk]
    rcases h.1 with h | ⟨rfl, h2, h3⟩ | ⟨rfl, h2⟩
    · cases h
    · exact .inl ⟨by simp [Forest.zeros], rfl, h2, h3⟩
    · exact .inr ⟨by simp [Forest.zeros], rfl, h2⟩
theorem zerosF_zr {α} : ∀ f : Forest α, Forest.Pl f → Forest.Zr (Forest.zeros f)
  | .nil, _ => trivial
  | .cons _ t r, h => ⟨zeros_zr t h.1, zerosF_zr r h.2⟩
end

mutual
theorem zr_pl {α} : ∀ t : Tree α, Tree.Zr t → Tree.Pl t
  | .leaf _, _ => trivial
  | .node kd f, h => by
    refine ⟨?_, zrF_pl f h.2⟩
    rcases h.1 with ⟨rfl, -⟩ | ⟨-, h2⟩ | ⟨-, h2⟩
    · exact .inl rfl
    · exact .inr (.inl h2)
    · exact .inr (.inr h2)
theorem zrF_pl {α} : ∀ f : Forest α, Forest.Zr f → Forest.Pl f
  | .nil, _ => trivial
  | .cons _ t r, h => ⟨zr_pl t h.1, zrF_pl r h.2⟩
end

/-- What a template node may stand for. -/
def Pair {α β} (v : Tree α) (w : Tree β) : Prop := match v, w with
  | .leaf _, .leaf _ => True
  | .leaf _, .node _ _ => False
  | .node .none _, .leaf _ => True
  | .node .none _, .node k _ => k = .dict
  | .node (.custom _) _, .leaf _ => False
  | .node (.custom _) _, .node _ _ => True
  | .node _ _, .leaf _ => False
  | .node k f, .node k' g => k = k' ∧ (k = .list → f.length = g.length)

theorem forall_at_cons {α β} (kd kd' : Kind) (f : Forest α) (g : Forest β) (R : Tree α → Tree β → Prop) (h0 : R (.node kd f) (.node kd' g)) :
    (∀ q v w, (Tree.node kd f).at_ q = some v → (Tree.node kd' g).at_ q = some w → R v w) ↔
      ∀ k t c, f.get k = some t → g.get k = some c → ∀ q v w, t.at_ q = some v → c.at_ q = some w → R v w := by
  constructor
  · intro h k t c h1 h2 q v w h3 h4
    exact h (k :: q) v w (by simp [Tree.at_, h1, h3]) (by simp [Tree.at_, h2, h4])
  · intro h q v w h1 h2
    cases q with
    | nil => cases h1; cases h2; exact h0
    | cons k q =>
      simp only [Tree.at_, Option.bind_eq_some_iff] at h1 h2
      obtain ⟨t, h3, h1⟩ := h1
      obtain ⟨c, h4, h2⟩ := h2
      exact h k t c h3 h4 q v w h1 h2

theorem forall_at_nil {α β} {t : Tree α} {s : Tree β} (R : Tree α → Tree β → Prop) (h : t.emptyOrLeaf = true ∨ s.emptyOrLeaf = true) :
    (∀ q v w, t.at_ q = some v → s.at_ q = some w → R v w) ↔ R t s := by
  have key : ∀ {γ} (x : Tree γ) (k : Key) (q : List Key), x.emptyOrLeaf = true → x.at_ (k :: q) = none := by
    intro γ x k q hx
    cases x with
    | leaf => rfl
    | node kd f => cases f with
      | nil => rfl
      | cons => cases hx
  constructor
  · intro h; exact h [] t s rfl rfl
  · intro h0 q v w h1 h2
    cases q with
    | nil => cases h1; cases h2; exact h0
    | cons k q =>
      rcases h with h | h
      · rw [key t k q h] at h1; cases h1
      · rw [key s k q h] at h2; cases h2

theorem get_toList {α} : ∀ {f : Forest α} {k : Key} {t : Tree α}, f.get k = some t → (k, t) ∈ f.toList
  | .nil, _, _, h => by simp [Forest.get] at h
  | .cons k' t' r, k, t, h => by
    simp only [Forest.get] at h
    split at h
    · next e => subst e; cases h; simp [Forest.toList]
    · simp [Forest.toList, get_toList h]

theorem toList_mem_keys {α} : ∀ {f : Forest α} {x : Key × Tree α}, x ∈ f.toList → x.1 ∈ f.keys
  | .nil, x, h => by simp [Forest.toList] at h
  | .cons k t r, x, h => by
    simp only [Forest.toList, List.mem_cons] at h
    rcases h with rfl | h
    · simp [Forest.keys]
    · simp [Forest.keys, toList_mem_keys h]

theorem toList_get {α} : ∀ {f : Forest α}, f.keys.Nodup → ∀ {x : Key × Tree α}, x ∈ f.toList → f.get x.1 = some x.2
  | .nil, _, x, h => by simp [Forest.toList] at h
  | .cons k t r, hn, x, h => by
    simp only [Forest.keys, List.nodup_cons] at hn
    simp only [Forest.toList, List.mem_cons] at h
    simp only [Forest.get]
    rcases h with rfl | h
    · simp
    · have : k ≠ x.1 := by
        rintro rfl
        exact hn.1 (toList_mem_keys h)
      simp only [this, if_false]
      exact toList_get hn.2 h

theorem node_forall {α β} {f : Forest α} {g : Forest β} (hn : f.keys.Nodup) {look : Key → Option (Key × Tree β)}
    (hl : ∀ k ∈ f.keys, ∀ l c, look k = some (l, c) ↔ l = k ∧ g.get k = some c) (Q : Tree α → Tree β → Prop) :
    (∀ x ∈ f.toList, ∀ l c, look x.1 = some (l, c) → Q x.2 c) ↔ ∀ k t c, f.get k = some t → g.get k = some c → Q t c := by
  constructor
  · intro h k t c h1 h2
    exact h (k, t) (get_toList h1) k c ((hl k (Forest.get_mem h1) k c).mpr ⟨rfl, h2⟩)
  · intro h x hx l c hc
    have := (hl x.1 (toList_mem_keys hx) l c).mp hc
    exact h x.1 x.2 c (toList_get hn hx) this.2

theorem link_dict {fk gk : List Key} (hf : ∀ k ∈ fk, ∃ s, k = .dict (.str s)) (hg : ∀ k ∈ gk, ∃ s, k = .dict (.str s)) {k l : Key}
    (hk : k ∈ fk) : Link .dict .dict fk gk k l ↔ l = k ∧ k ∈ gk := by
  simp only [Link, Kind.isSeq, Bool.and_self, Bool.false_eq_true, if_false]
  constructor
  · rintro ⟨h1, h2, h3⟩
    obtain ⟨s, rfl⟩ := hf k h1
    obtain ⟨u, rfl⟩ := hg l h2
    simp only [Key.str, Key.name, Atom.toStr] at h3
    subst h3
    exact ⟨rfl, h2⟩
  · rintro ⟨rfl, h2⟩
    exact ⟨hk, h2, rfl⟩

theorem link_list {fk gk : List Key} (hf : SeqFrom Key.seq 0 fk) (hg : SeqFrom Key.seq 0 gk) (hlen : gk.length = fk.length) {k l : Key}
    (hk : k ∈ fk) : Link .list .list fk gk k l ↔ l = k ∧ k ∈ gk := by
  have key : ∀ (m : List Key), SeqFrom Key.seq 0 m → ∀ (i : Nat) k, m[i]? = some k → k = .seq i := by
    intro m hm i k hi
    have := seqFrom_get m 0 i hm (List.getElem?_eq_some_iff.mp hi).1
    rw [hi] at this
    simpa using this
  simp only [Link, Kind.isSeq, Bool.and_self, if_true]
  constructor
  · rintro ⟨i, h1, h2⟩
    have := key fk hf i k h1
    have := key gk hg i l h2
    subst_vars
    exact ⟨rfl, List.mem_iff_getElem?.mpr ⟨i, h2⟩⟩
  · rintro ⟨rfl, h2⟩
    obtain ⟨i, hi⟩ := List.mem_iff_getElem?.mp hk
    refine ⟨i, hi, ?_⟩
    have h3 := key fk hf i l hi
    have h4 : i < gk.length := by rw [hlen]; exact (List.getElem?_eq_some_iff.mp hi).1
    have := seqFrom_get gk 0 i hg h4
    rw [this, h3, Nat.zero_add]

mutual
theorem trim_iff {α} : ∀ (T : Tree α) (M : Py), Tree.Zr T → Tree.Norm M →
    ((T.trim false false M).isSome = true ↔ ∀ q v w, T.at_ q = some v → M.at_ q = some w → Pair v w)
  | .leaf a, M, _, hM => by
    rw [forall_at_nil Pair (.inl rfl)]
    cases M with
    | leaf e => simp [Tree.trim, Pair]
    | node kd g => rcases hM.2.1 with ⟨rfl, -⟩ | ⟨rfl, -⟩ <;> simp [Tree.trim, Pair]
  | .node .none f, M, hT, hM => by
    have hf : f = .nil := by
      rcases hT.1 with ⟨h, -⟩ | ⟨-, h, -⟩ | ⟨-, h, -⟩
      · exact h
      · cases h
      · cases h
    subst hf
    rw [forall_at_nil Pair (.inl rfl)]
    cases M with
    | leaf e => simp [Tree.trim, Pair]
    | node kd g => rcases hM.2.1 with ⟨rfl, -⟩ | ⟨rfl, -⟩ <;> simp [Tree.trim, Pair, asDict]
  | .node (.custom n) f, M, hT, hM => by
    have hf : f = .nil := by
      rcases hT.1 with ⟨h, -⟩ | ⟨-, h, -⟩ | ⟨-, h, -⟩
      · exact h
      · cases h
      · cases h
    subst hf
    rw [forall_at_nil Pair (.inl rfl)]
    cases M with
    | leaf e => simp [Tree.trim, Pair]
    | node kd g => simp [Tree.trim, Pair, Forest.trimWith]
  | .node .tuple f, M, hT, _ => by
    rcases hT.1 with ⟨-, h | ⟨n, h⟩⟩ | ⟨-, h, -⟩ | ⟨-, h, -⟩ <;> cases h
  | .node (.named n) f, M, hT, _ => by
    rcases hT.1 with ⟨-, h | ⟨n, h⟩⟩ | ⟨-, h, -⟩ | ⟨-, h, -⟩ <;> cases h
  | .node .dict f, M, hT, hM => by
    have hk : (∀ k ∈ f.keys, ∃ s, k = .dict (.str s)) ∧ f.keys.Nodup := by
      rcases hT.1 with ⟨-, h | ⟨n, h⟩⟩ | ⟨-, -, h⟩ | ⟨-, h, -⟩
      · cases h
      · cases h
      · exact h
      · cases h
    cases M with
    | leaf e => rw [forall_at_nil Pair (.inr rfl)]; simp [Tree.trim, Pair, asDict]
    | node kd g =>
      rcases hM.2.1 with ⟨rfl, hg, hgn⟩ | ⟨rfl, hg⟩
      · rw [forall_at_cons .dict .dict f g Pair (by simp [Pair])]
        have hr := str_keys (key := Key.raw) (key' := Key.raw) (raw_str hk.1) (raw_str hg)
        have hlook := (keyed_ok (kd := .dict) (kd' := .dict) (fk := f.keys) (g := g) Key.raw Key.raw rfl (str_nodup_of_dict hg hgn) hr.1 hr.2).1
        have hl : ∀ k ∈ f.keys, ∀ l c, Assoc.get (g.entries Key.raw) k.raw = some (l, c) ↔ l = k ∧ g.get k = some c := by
          intro k hk' l c
          have := hlook k hk' l c
          simp only at this
          rw [this, link_dict hk.1 hg hk']
          constructor
          · rintro ⟨h1, rfl, h2⟩; exact ⟨rfl, h1⟩
          · rintro ⟨rfl, h1⟩; exact ⟨h1, rfl, Forest.get_mem h1⟩
        have ih := trimF_iff f (fun k => Assoc.get (g.entries Key.raw) k.raw) hT.2 (by
          intro k hk' l c hc
          exact norm_child hM.2.2 ((hl k hk' l c).mp hc).2)
        rw [← node_forall hk.2 hl (fun t c => ∀ q v w, t.at_ q = some v → c.at_ q = some w → Pair v w), ← ih]
        simp only [Tree.trim, asDict, Option.bind_eq_bind, Option.bind_some]
        cases f.trimWith false false (fun k => Assoc.get (g.entries Key.raw) k.raw) <;> simp
      · constructor
        · intro h; simp [Tree.trim, asDict] at h
        · intro h; have := h [] _ _ rfl rfl; simp [Pair] at this
  | .node .list f, M, hT, hM => by
    have hk : SeqFrom Key.seq 0 f.keys := by
      rcases hT.1 with ⟨-, h | ⟨n, h⟩⟩ | ⟨-, h, -⟩ | ⟨-, -, h⟩
      · cases h
      · cases h
      · cases h
      · exact h
    cases M with
    | leaf e => rw [forall_at_nil Pair (.inr rfl)]; simp [Tree.trim, Pair]
    | node kd g =>
      rcases hM.2.1 with ⟨rfl, hg, hgn⟩ | ⟨rfl, hg⟩
      · constructor
        · intro h; simp [Tree.trim, Kind.isSeq] at h
        · intro h; have := h [] _ _ rfl rfl; simp [Pair] at this
      · by_cases hlen : g.length = f.length
        · rw [forall_at_cons .list .list f g Pair (by simp [Pair, hlen])]
          have hlook := (zipped_ok (kd := .list) (kd' := .list) rfl (str_nodup_of_seq hk) (str_nodup_of_seq hg) hlen).1
          have hlen' : g.keys.length = f.keys.length := by rw [← Forest.length_keys, ← Forest.length_keys, hlen]
          have hl : ∀ k ∈ f.keys, ∀ l c, Assoc.get (zipped f g) k = some (l, c) ↔ l = k ∧ g.get k = some c := by
            intro k hk' l c
            have := hlook k hk' l c
            simp only at this
            rw [this, link_list hk hg hlen' hk']
            constructor
            · rintro ⟨h1, rfl, h2⟩; exact ⟨rfl, h1⟩
            · rintro ⟨rfl, h1⟩; exact ⟨h1, rfl, Forest.get_mem h1⟩
          have ih := trimF_iff f (fun k => Assoc.get (zipped f g) k) hT.2 (by
            intro k hk' l c hc
            exact norm_child hM.2.2 ((hl k hk' l c).mp hc).2)
          rw [← node_forall (seqFrom_names _ _ hk).1 hl (fun t c => ∀ q v w, t.at_ q = some v → c.at_ q = some w → Pair v w), ← ih]
          simp only [Tree.trim, Kind.isSeq, Bool.true_or, if_true, hlen, ne_eq, not_true_eq_false, if_false, Option.bind_eq_bind]
          cases f.trimWith false false (fun k => Assoc.get (zipped f g) k) <;> simp
        · constructor
          · intro h; simp [Tree.trim, Kind.isSeq, hlen] at h
          · intro h; have := h [] _ _ rfl rfl; simp only [Pair, true_and] at this; exact absurd (this trivial).symm hlen
theorem trimF_iff {α} : ∀ (f : Forest α) (look : Key → Option (Key × Py)), Forest.Zr f → (∀ k ∈ f.keys, ∀ l c, look k = some (l, c) → Tree.Norm c) →
    ((f.trimWith false false look).isSome = true ↔
      ∀ x ∈ f.toList, ∀ l c, look x.1 = some (l, c) → ∀ q v w, x.2.at_ q = some v → c.at_ q = some w → Pair v w)
  | .nil, look, _, _ => by simp [Forest.trimWith, Forest.toList]
  | .cons k t r, look, hz, hl => by
    have ihr := trimF_iff r look hz.2 (fun k' hk' => hl k' (by simp [Forest.keys, hk']))
    simp only [Forest.toList, List.forall_mem_cons]
    rw [← ihr]
    simp only [Forest.trimWith]
    cases hk : look k with
    | none =>
      simp only [Bool.false_eq_true, if_false, Option.isSome_map]
      simp
    | some x =>
      obtain ⟨l, c⟩ := x
      have iht := trim_iff t c hz.1 (hl k (by simp [Forest.keys]) l c hk)
      have e : (∀ l' c', some (l, c) = some (l', c') → ∀ q v w, t.at_ q = some v → c'.at_ q = some w → Pair v w) ↔
          ∀ q v w, t.at_ q = some v → c.at_ q = some w → Pair v w := by
        constructor
        · intro h; exact h l c rfl
        · intro h l' c' e; cases e; exact h
      rw [e, ← iht]
      simp only [Option.bind_eq_bind]
      cases t.trim false false c with
      | none => simp
      | some y => cases r.trimWith false false look <;> simp
end

/-! ### Patching -/

/-- What is put at a leaf of the item. -/
def orItem {V} (u item : Tree (Option V)) : Tree (Option V) := match u with
  | .leaf none => item
  | u => u

mutual
theorem patch_eq {V} (g g' : List Key → Option (Tree (Option V))) : ∀ (t : Tree (Option V)) (pre : List Key) (r : Tree (Option V)),
    (∀ x ∈ t.flat false, ∀ u, g (pre ++ x.1) = some u → u.emptyOrLeaf = true ∧ g' (pre ++ x.1) = some (orItem u x.2)) →
    t.mapPath false g pre = some r → Tree.patch r t = t.mapPath false g' pre
  | .leaf a, pre, r, hg, hr => by
    obtain ⟨h1, h2⟩ := hg ([], .leaf a) (by simp [Tree.flat]) r (by simpa [Tree.mapPath] using hr)
    simp only [List.append_nil] at h2
    simp only [Tree.mapPath, h2]
    cases r with
    | leaf o => cases o <;> simp [Tree.patch, orItem]
    | node kd f => cases f with
      | nil => simp [Tree.patch, Forest.isEmpty, orItem]
      | cons => cases h1
  | .node kd f, pre, r, hg, hr => by
    simp only [Tree.mapPath, Bool.false_and, Bool.false_eq_true, if_false, Option.map_eq_some_iff] at hr
    obtain ⟨f', hf, rfl⟩ := hr
    obtain ⟨h1, h2⟩ := patchF_eq g g' f pre f' (by simpa [Tree.flat] using hg) hf
    simp only [Tree.mapPath, Bool.false_and, Bool.false_eq_true, if_false, Tree.patch, h2, if_true]
    split
    · next he =>
      rw [h1] at he
      cases f with
      | nil =>
        simp only [Forest.mapPath, Option.some.injEq] at hf
        subst hf
        simp [Forest.mapPath]
      | cons => cases he
    · rfl
theorem patchF_eq {V} (g g' : List Key → Option (Tree (Option V))) : ∀ (f : Forest (Option V)) (pre : List Key) (r : Forest (Option V)),
    (∀ x ∈ f.flat false, ∀ u, g (pre ++ x.1) = some u → u.emptyOrLeaf = true ∧ g' (pre ++ x.1) = some (orItem u x.2)) →
    f.mapPath false g pre = some r → r.isEmpty = f.isEmpty ∧ Forest.patch r f = f.mapPath false g' pre
  | .nil, pre, r, _, hr => by
    simp only [Forest.mapPath, Option.some.injEq] at hr
    subst hr
    exact ⟨rfl, rfl⟩
  | .cons k t f, pre, r, hg, hr => by
    simp only [Forest.mapPath, Option.bind_eq_bind, Option.bind_eq_some_iff, Option.pure_def, Option.some.injEq] at hr
    obtain ⟨t', ht, r', hr, rfl⟩ := hr
    have h1 := patch_eq g g' t (pre ++ [k]) t' (by
      intro x hx u hu
      have := hg (k :: x.1, x.2) (by
        simp only [Forest.flat, List.mem_append, List.mem_map]
        exact .inl ⟨x, hx, rfl⟩) u (by simpa using hu)
      simpa using this) ht
    have h2 := patchF_eq g g' f pre r' (fun x hx => hg x (by simp [Forest.flat, hx])) hr
    refine ⟨rfl, ?_⟩
    simp [Forest.patch, Forest.mapPath, h1, h2.2]
end

/-! ### The metadata for a part -/

mutual
theorem pl_shape {α} : ∀ t : Tree α, Tree.Pl t.shape ↔ Tree.Pl t
  | .leaf _ => by simp [Tree.shape, Tree.Pl]
  | .node kd f => by
    have hn : f.shape = .nil ↔ f = .nil := by cases f <;> simp [Forest.shape]
    simp [Tree.shape, Tree.Pl, shapeF_keys, plF_shape f, hn]
theorem plF_shape {α} : ∀ f : Forest α, Forest.Pl f.shape ↔ Forest.Pl f
  | .nil => by simp [Forest.shape, Forest.Pl]
  | .cons _ t r => by simp [Forest.shape, Forest.Pl, pl_shape t, plF_shape r]
end

theorem zerosF_get {α} (k : Key) : ∀ f : Forest α, (Forest.zeros f).get k = (f.get k).map Tree.zeros
  | .nil => rfl
  | .cons k' t r => by
    simp only [Forest.zeros, Forest.get]
    split
    · rfl
    · exact zerosF_get k r

theorem zeros_at {α} : ∀ (p : List Key) (t : Tree α), (Tree.zeros t).at_ p = (t.at_ p).map Tree.zeros
  | [], t => rfl
  | k :: p, .leaf _ => rfl
  | k :: p, .node kd .nil => by
    simp only [Tree.zeros, Forest.isEmpty, if_true]
    split <;> rfl
  | k :: p, .node kd (.cons k' t r) => by
    simp only [Tree.zeros, Forest.isEmpty, Bool.false_eq_true, if_false]
    simp only [Tree.at_, zerosF_get]
    cases (Forest.cons k' t r).get k with
    | none => rfl
    | some c => exact zeros_at p c

/-- In terms of the trees: the item may be restored. -/
theorem pair_takes {α V} (v : Tree α) (w : Py) (u : Tree V) (hw : ∀ k f, w = .node k f → f ≠ .nil ∧ (k = .dict ∨ k = .list))
    (hk : nodeKind w = nodeKind u) (hv : nodeKind v ≠ none → nodeKind v = some .dict ∨ nodeKind v = some .list)
    (hl : ∀ f, w = .node .list f → f.length = width u) : Pair (Tree.zeros v) w ↔ Takes v u := by
  have hw' : (∃ e, w = .leaf e ∧ nodeKind u = none) ∨ (∃ f, w = .node .dict f ∧ nodeKind u = some .dict) ∨
      ∃ f, w = .node .list f ∧ nodeKind u = some .list ∧ f.length = width u := by
    cases w with
    | leaf e => exact .inl ⟨e, rfl, hk.symm⟩
    | node k f =>
      obtain ⟨h1, h2⟩ := hw k f rfl
      have h3 : nodeKind (Tree.node k f) = some k := by
        cases f with
        | nil => exact absurd rfl h1
        | cons => rfl
      rw [h3] at hk
      rcases h2 with rfl | rfl
      · exact .inr (.inl ⟨f, rfl, hk.symm⟩)
      · exact .inr (.inr ⟨f, rfl, hk.symm, hl f rfl⟩)
  have hlen : ∀ f : Forest α, (Forest.zeros f).length = f.length := by
    intro f
    rw [Forest.length_keys, zerosF_keys, Forest.length_keys]
  cases v with
  | leaf a => rcases hw' with ⟨e, rfl, h⟩ | ⟨f, rfl, h⟩ | ⟨f, rfl, h, -⟩ <;> simp [Tree.zeros, Pair, Takes, h]
  | node k g =>
    cases g with
    | nil =>
      simp only [Tree.zeros, Forest.isEmpty, if_true, Takes]
      rcases hw' with ⟨e, rfl, h⟩ | ⟨f, rfl, h⟩ | ⟨f, rfl, h, -⟩ <;> cases k <;> simp [isContainer, Pair, h]
    | cons k' t r =>
      have := hlen (.cons k' t r)
      simp only [Tree.zeros, Forest.isEmpty, Bool.false_eq_true, if_false, Takes]
      rcases hv (by simp [nodeKind, Forest.isEmpty]) with e | e <;>
        simp only [nodeKind, Forest.isEmpty, Bool.false_eq_true, if_false, Option.some.injEq] at e <;> subst e
      · rcases hw' with ⟨e, rfl, h⟩ | ⟨f, rfl, h⟩ | ⟨f, rfl, h, -⟩ <;> simp [Pair, h]
      · rcases hw' with ⟨e, rfl, h⟩ | ⟨f, rfl, h⟩ | ⟨f, rfl, h, h2⟩ <;> simp [Pair, h]
        rw [this, ← h2]
        exact eq_comm

theorem pl_at {α} : ∀ (q : List Key) (t v : Tree α), Tree.Pl t → t.at_ q = some v → Tree.Pl v
  | [], t, v, h, e => by cases t <;> cases e <;> exact h
  | k :: q, .leaf _, _, _, e => by cases e
  | k :: q, .node kd f, v, h, e => by
    simp only [Tree.at_, Option.bind_eq_some_iff] at e
    obtain ⟨c, hc, e⟩ := e
    exact pl_at q c v (pl_child h.2 hc) e

theorem norm_at {α} : ∀ (q : List Key) (t v : Tree α), Tree.Norm t → t.at_ q = some v → Tree.Norm v
  | [], t, v, h, e => by cases t <;> cases e <;> exact h
  | k :: q, .leaf _, _, _, e => by cases e
  | k :: q, .node kd f, v, h, e => by
    simp only [Tree.at_, Option.bind_eq_some_iff] at e
    obtain ⟨c, hc, e⟩ := e
    exact norm_at q c v (norm_child h.2.2 hc) e

theorem at_append {α} : ∀ (p q : List Key) (t : Tree α), t.at_ (p ++ q) = (t.at_ p).bind fun c => c.at_ q
  | [], q, t => by cases t <;> rfl
  | k :: p, q, .leaf _ => rfl
  | k :: p, q, .node kd f => by
    simp only [List.cons_append, Tree.at_]
    cases f.get k with
    | none => rfl
    | some c => exact at_append p q c

theorem seq_get {α} {f : Forest α} (h : SeqFrom Key.seq 0 f.keys) (n : Nat) : (f.get (.seq n)).isSome = decide (n < f.length) := by
  have h1 := nth_get f 0 n h
  rw [Nat.zero_add] at h1
  rw [h1]
  clear h h1
  induction f using Forest.rec (motive_1 := fun _ => True) generalizing n with
  | nil => simp [Forest.nth, Forest.length]
  | cons k t r _ ih =>
    cases n with
    | zero => simp [Forest.nth, Forest.length]
    | succ n => simp [Forest.nth, Forest.length, ih n]
  | leaf => trivial
  | node => trivial

theorem seq_length {α β} {f : Forest α} {g : Forest β} (hf : SeqFrom Key.seq 0 f.keys) (hg : SeqFrom Key.seq 0 g.keys)
    (h : ∀ k, (f.get k).isSome = (g.get k).isSome) : f.length = g.length := by
  have h1 := h (.seq f.length)
  have h2 := h (.seq g.length)
  rw [seq_get hf, seq_get hg] at h1 h2
  simp only [Nat.lt_irrefl, decide_false] at h1 h2
  have h3 := of_decide_eq_false h1.symm
  have h4 := of_decide_eq_false h2
  omega

/-- Trimming the metadata succeeds exactly if the item may be restored. -/
theorem omission_iff {V α D} {C : Codec V D} {o : Options} {t : Tree V} {ck : Ckpt D} {M : Py} (hM : Meta C o t ck M) (hk : t.KeysOk) (i : Tree α)
    (hi : i.KeysOk) : ((Tree.zeros i.plain).trim false false M).isSome = true ↔
      ∀ q v w, i.plain.at_ q = some v → t.plain.at_ q = some w → Takes v w := by
  have hipl := plain_pl i hi
  rw [trim_iff _ M (zeros_zr _ hipl) hM.norm]
  have key : ∀ q v w u, i.plain.at_ q = some v → M.at_ q = some w → t.plain.at_ q = some u → (Pair (Tree.zeros v) w ↔ Takes v u) := by
    intro q v w u h1 h2 h3
    have hkind := hM.kinds q
    rw [h2, h3] at hkind
    simp only [Option.map_some, Option.some.injEq] at hkind
    have hwn := norm_at q M w hM.norm h2
    refine pair_takes v w u ?_ hkind ?_ ?_
    · rintro k f rfl
      refine ⟨hwn.1, ?_⟩
      rcases hwn.2.1 with ⟨rfl, -⟩ | ⟨rfl, -⟩
      · exact .inl rfl
      · exact .inr rfl
    · intro hne
      have hvp := pl_at q _ v hipl h1
      cases v with
      | leaf => exact absurd rfl hne
      | node k f =>
        cases f with
        | nil => exact absurd rfl hne
        | cons =>
          rcases hvp.1 with h | ⟨rfl, -⟩ | ⟨rfl, -⟩
          · cases h
          · exact .inl rfl
          · exact .inr rfl
    · rintro f rfl
      have hup := pl_at q _ u (plain_pl t hk) h3
      have hfs : SeqFrom Key.seq 0 f.keys := by
        rcases hwn.2.1 with ⟨h, -⟩ | ⟨-, h⟩
        · cases h
        · exact h
      have hk1 : nodeKind (Tree.node .list f) = some .list := by
        cases f with
        | nil => exact absurd rfl hwn.1
        | cons => rfl
      rw [hk1] at hkind
      cases u with
      | leaf => cases hkind
      | node k g =>
        cases hg : g.isEmpty with
        | true => simp [nodeKind, hg] at hkind
        | false =>
          simp only [nodeKind, hg, Bool.false_eq_true, if_false, Option.some.injEq] at hkind
          subst hkind
          have hgs : SeqFrom Key.seq 0 g.keys := by
            rcases hup.1 with h | ⟨h, -⟩ | ⟨-, h⟩
            · subst h; cases hg
            · cases h
            · exact h
          refine seq_length hfs hgs ?_
          intro key
          have h4 := hM.kinds (q ++ [key])
          rw [at_append, at_append, h2, h3] at h4
          have h5 := congrArg Option.isSome h4
          simp only [Option.isSome_map, Option.bind_some, Tree.at_] at h5
          cases hf' : f.get key <;> cases hg' : g.get key <;> simp [hf', hg'] at h5 ⊢
  constructor
  · intro h q v u h1 h3
    have hkind := hM.kinds q
    rw [h3] at hkind
    cases h2 : M.at_ q with
    | none => rw [h2] at hkind; cases hkind
    | some w => exact (key q v w u h1 h2 h3).mp (h q _ w (by rw [zeros_at, h1]; rfl) h2)
  · intro h q v' w h1 h2
    rw [zeros_at, Option.map_eq_some_iff] at h1
    obtain ⟨v, h1, rfl⟩ := h1
    have hkind := hM.kinds q
    rw [h2] at hkind
    cases h3 : t.plain.at_ q with
    | none => rw [h3] at hkind; cases hkind
    | some u => exact (key q v w u h1 h2 h3).mpr (h q v u h1 h3)

theorem inj_of_nodup_map {α β} (f : α → β) : ∀ {l : List α}, (l.map f).Nodup → ∀ x ∈ l, ∀ y ∈ l, f x = f y → x = y
  | [], _, x, hx, _, _, _ => by cases hx
  | a :: l, hn, x, hx, y, hy, e => by
    simp only [List.map_cons, List.nodup_cons] at hn
    rcases List.mem_cons.mp hx with rfl | hx'
    · rcases List.mem_cons.mp hy with rfl | hy'
      · rfl
      · exact absurd (List.mem_map.mpr ⟨y, hy', e.symm⟩) hn.1
    · rcases List.mem_cons.mp hy with rfl | hy'
      · exact absurd (List.mem_map.mpr ⟨x, hx', e⟩) hn.1
      · exact inj_of_nodup_map f hn.2 x hx' y hy' e

/-- C85 (partial restore): restoring a part succeeds exactly if the item may stand for what the checkpoint has at the same paths, and gives the item
with the saved values where the checkpoint has values under the same names, and the item's values elsewhere. -/
theorem C85_partial_restore {V D} (C : Codec V D) (hC : Faithful C) (o : Options) (t : Tree V) (ck : Ckpt D) (hk : t.KeysOk)
    (hn : (paramNames false t).Nodup) (hs : Saved C o t ck) (i : Tree (Option V)) (hi : i.KeysOk) :
    ((restore C o ck true (some i) none).isSome = true ↔ ∀ q v w, i.plain.at_ q = some v → t.plain.at_ q = some w → Takes v w) ∧
    ∀ r, restore C o ck true (some i) none = some r → PartlyRestored t i r := by
  obtain ⟨M, hM⟩ := saved_meta C o t ck hC hk hs
  obtain ⟨m, h1, h2⟩ := hM.read
  have hid := keysOk_distinct i hi
  have htd := keysOk_distinct t hk
  have hipl := plain_pl i hi
  have hz := zeros_zr _ hipl
  have hwf := zr_wf _ hz
  have hMwf := zr_wf _ (norm_zr M hM.norm)
  have hiff := omission_iff hM hk i hi
  have hrest : restore C o ck true (some i) none = (trimParts false false (Tree.zeros i.plain) M).bind fun x =>
      (x.1.unsafe).bind fun u => (restoreWith C ck.params i u none).bind fun r => Tree.patch r i := by
    simp only [restore, h1, h2, Option.bind_eq_bind, Option.bind_some, hM.truthy, if_true, C41_serialize i hi, omission]
    cases trimParts false false (Tree.zeros i.plain) M with
    | none => rfl
    | some x =>
      simp only [Option.bind_some]
      cases x.1.unsafe <;> rfl
  cases hT : trimParts false false (Tree.zeros i.plain) M with
  | none =>
    have hno : ¬ ((Tree.zeros i.plain).trim false false M).isSome = true := by
      intro h
      have := trimParts_some hwf.1 hMwf.1 h
      rw [hT] at this
      cases this
    rw [hrest, hT, ← hiff]
    exact ⟨⟨fun h => (by cases h), fun h => absurd h hno⟩, fun r h => (by cases h)⟩
  | some x =>
    obtain ⟨pt, d⟩ := x
    have hyes : ((Tree.zeros i.plain).trim false false M).isSome = true := by
      cases h : (Tree.zeros i.plain).trim false false M with
      | some _ => rfl
      | none => simp [trimParts, h] at hT
    obtain ⟨hok, htem, -⟩ := C44_kept false false _ _ _ _ hwf.1 hMwf.1 hT
    have hlook := C44_same_paths false false _ _ _ _ hwf.1 hMwf.1 hwf.2 hMwf.2 hT
    obtain ⟨u, hu, hush, hul⟩ := C46_unsafe pt hok
    rw [htem] at hush
    have hupl : Tree.Pl u := by
      rw [← pl_shape, hush, pl_shape]
      exact zr_pl _ hz
    have hud := keysOk_distinct u (pl_keysOk u hupl)
    -- the leaves of the trimmed metadata
    have hleaf : ∀ p a, i.at_ p = some (.leaf a) → u.at_ (p.map normKey) = some (.leaf (pt.lookup (strPath p))) ∧
        strPath p ∈ leafPaths (Tree.zeros i.plain) := by
      intro p a hp
      have h3 := (i.flat_spec true hid p (.leaf a)).mpr ⟨hp, rfl, by simp⟩
      have h4 := (plain_at_iff i hi (p.map normKey) (.leaf a) rfl).mpr ⟨_, h3, rfl, rfl⟩
      have h5 : (Tree.zeros i.plain).at_ (p.map normKey) = some (.leaf ()) := by rw [zeros_at, h4]; rfl
      obtain ⟨e, he⟩ := at_leaf_shape hush.symm h5
      have h6 := hul (p.map normKey, .leaf e) ((u.flat_spec false hud _ _).mpr ⟨he, rfl, fun _ => ⟨e, rfl⟩⟩)
      simp only [strPath_norm] at h6
      refine ⟨by rw [he, h6], ?_⟩
      have := mem_leafPaths (x := (p.map normKey, .leaf ())) (((Tree.zeros i.plain).flat_spec false (wf_distinct hwf.1) _ _).mpr ⟨h5, rfl, fun _ => ⟨_, rfl⟩⟩)
      simpa [strPath_norm] using this
    have hlk : ∀ p a, i.at_ p = some (.leaf a) → ∀ e, pt.lookup (strPath p) = some e ↔ ∃ x ∈ t.flat true, strPath x.1 = strPath p ∧ e = .entry (valueOf C x.2) := by
      intro p a hp e
      rw [hlook]
      constructor
      · rintro ⟨-, ls, h3, h4⟩
        obtain ⟨x, hx, h5, h6⟩ := (hM.leaves ls e).mp h4
        exact ⟨x, hx, by rw [← h3, ← h5, strPath_norm], h6⟩
      · rintro ⟨x, hx, h3, h4⟩
        exact ⟨(hleaf p a hp).2, x.1.map normKey, by rw [strPath_norm, h3], (hM.leaves _ e).mpr ⟨x, hx, rfl, h4⟩⟩
    have hrw : restoreWith C ck.params i u none = i.mapPath false (fun p => leafResult C ck.params p (pt.lookup (strPath p)) none) [] := by
      rw [restoreWith_eq C ck.params i hi u none (by simp) (fun p => pt.lookup (strPath p))]
      · rfl
      · intro x hx
        obtain ⟨h3, -, h4⟩ := (i.flat_spec false hid x.1 x.2).mp hx
        obtain ⟨e, he⟩ := h4 rfl
        rw [he] at h3
        exact walk_of_at x.1 u _ hupl (hleaf x.1 e h3).1
    -- the result at a leaf
    have hres : ∀ p a, i.at_ p = some (.leaf a) →
        (∃ x ∈ t.flat true, strPath x.1 = strPath p ∧ leafResult C ck.params p (pt.lookup (strPath p)) none = some (Tree.expected x.2)) ∨
        ((∀ x ∈ t.flat true, strPath x.1 ≠ strPath p) ∧ leafResult C ck.params p (pt.lookup (strPath p)) none = some (.leaf none)) := by
      intro p a hp
      cases hl : pt.lookup (strPath p) with
      | none =>
        right
        refine ⟨?_, rfl⟩
        intro x hx e
        have := (hlk p a hp _).mpr ⟨x, hx, e, rfl⟩
        rw [hl] at this
        cases this
      | some e =>
        left
        obtain ⟨x, hx, h3, rfl⟩ := (hlk p a hp e).mp hl
        refine ⟨x, hx, h3, ?_⟩
        obtain ⟨p', w⟩ := x
        cases w with
        | leaf v => exact (leafResult_leaf hC hM hn _ hx v rfl p h3.symm).1
        | node k f =>
          have : f = .nil := by
            have := ((t.flat_spec true htd p' (.node k f)).mp hx).2.1
            cases f with
            | nil => rfl
            | cons => cases this
          subst this
          exact leafResult_node C ck.params k .nil p none
    let g : List Key → Option (Tree (Option V)) := fun p => leafResult C ck.params p (pt.lookup (strPath p)) none
    let g' : List Key → Option (Tree (Option V)) := fun p => (g p).map fun w => orItem w ((i.at_ p).getD .pyNone)
    have hexp : ∀ x ∈ t.flat true, (Tree.expected x.2).emptyOrLeaf = true := by
      intro x hx
      have := ((t.flat_spec true htd x.1 x.2).mp hx).2.1
      cases h6 : x.2 with
      | leaf v => rfl
      | node k f =>
        rw [h6] at this
        simpa [Tree.expected, Tree.emptyOrLeaf, expectedF_isEmpty] using this
    have hgs : ∀ x ∈ i.flat false, (g x.1).isSome = true := by
      intro x hx
      obtain ⟨h3, -, h4⟩ := (i.flat_spec false hid x.1 x.2).mp hx
      obtain ⟨e, he⟩ := h4 rfl
      rw [he] at h3
      rcases hres x.1 e h3 with ⟨y, -, -, h5⟩ | ⟨-, h5⟩
      · simp [g, h5]
      · simp [g, h5]
    obtain ⟨r0, hr0⟩ := Option.isSome_iff_exists.mp (mapPath_isSome g i [] (by simpa using hgs))
    have hpatch := patch_eq g g' i [] r0 (by
      intro x hx w hw
      obtain ⟨h3, -, h4⟩ := (i.flat_spec false hid x.1 x.2).mp hx
      obtain ⟨e, he⟩ := h4 rfl
      rw [List.nil_append] at hw ⊢
      refine ⟨?_, ?_⟩
      · rw [he] at h3
        rcases hres x.1 e h3 with ⟨y, hy, -, h5⟩ | ⟨-, h5⟩
        · simp only [g, h5] at hw
          cases hw
          exact hexp y hy
        · simp only [g, h5] at hw
          cases hw
          rfl
      · simp only [g', hw, Option.map_some, h3, Option.getD_some]) hr0
    have hfin : restore C o ck true (some i) none = i.mapPath false g' [] := by
      rw [hrest, hT]
      simp only [Option.bind_some, hu]
      rw [hrw]
      change (Option.bind (i.mapPath false g []) fun r => Tree.patch r i) = _
      rw [hr0]
      exact hpatch
    refine ⟨⟨fun _ => hiff.mp hyes, fun _ => ?_⟩, ?_⟩
    · rw [hfin]
      refine mapPath_isSome g' i [] ?_
      intro x hx
      have := hgs x hx
      simpa [g'] using this
    · intro r hr
      rw [hfin] at hr
      have hat := mapPath_at g' i [] r hr
      have huniq : ∀ x ∈ t.flat true, ∀ y ∈ t.flat true, strPath x.1 = strPath y.1 → x = y := by
        intro x hx y hy e
        have := t.flat_nodup true htd
        exact inj_of_nodup_map (fun x => strPath x.1) this x hx y hy e
      refine ⟨fun p kd f hf => (hat p).2 kd f hf, ?_, ?_⟩
      · intro p a ha q w hq hw hwe
        rw [(hat p).1 a ha, List.nil_append]
        have hmem := (t.flat_spec true htd q w).mpr ⟨hw, hwe, by simp⟩
        rcases hres p a ha with ⟨x, hx, h3, h5⟩ | ⟨h3, -⟩
        · have : x = (q, w) := huniq x hx _ hmem (by rw [h3, hq])
          subst this
          simp only [g', g, h5, Option.map_some, Option.some.injEq]
          cases w with
          | leaf v => rfl
          | node k f => rfl
        · exact absurd hq (h3 _ hmem)
      · intro p a ha hno
        rw [(hat p).1 a ha, List.nil_append]
        rcases hres p a ha with ⟨x, hx, h3, h5⟩ | ⟨-, h5⟩
        · obtain ⟨h6, h7, -⟩ := (t.flat_spec true htd x.1 x.2).mp hx
          rw [hno x.1 x.2 h3 h6] at h7
          cases h7
        · simp only [g', g, h5, Option.map_some, ha, Option.getD_some, orItem]

end Verif.PyTree
