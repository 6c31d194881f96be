import Verif.Metadata.TreeMetaProps

/-!
# Property C51: the nested tree

`as_nested_tree` gives the serialized form of the tree that the metadata was built from.
-/

namespace Verif.TreeMetadata

open Verif Verif.Trees

/-! ### The order of the paths -/

structure Lin {α} [DecidableEq α] (lt : α → α → Option Bool) : Prop where
  irr : ∀ a, lt a a ≠ some true
  tr : ∀ a b c, lt a b = some true → lt b c = some true → lt a c = some true
  conn : ∀ a b, lt a b = some false → a = b ∨ lt b a = some true
  sym : ∀ a b, (lt a b).isSome = (lt b a).isSome

theorem Lin.asymm {α} [DecidableEq α] {lt : α → α → Option Bool} (h : Lin lt) {a b : α} (h1 : lt a b = some true) (h2 : lt b a = some true) : False :=
  h.irr a (h.tr a b a h1 h2)

theorem Lin.lex {α} [DecidableEq α] {lt : α → α → Option Bool} (h : Lin lt) : Lin (lexLt lt) where
  irr := by
    intro l
    induction l with
    | nil => simp [lexLt]
    | cons a l ih => simpa [lexLt] using ih
  tr := by
    intro l
    induction l with
    | nil =>
      intro m n h1 h2
      cases m with
      | nil => simp [lexLt] at h1
      | cons b m => cases n with
        | nil => simp [lexLt] at h2
        | cons c n => rfl
    | cons a l ih =>
      intro m n h1 h2
      cases m with
      | nil => simp [lexLt] at h1
      | cons b m => cases n with
        | nil => simp [lexLt] at h2
        | cons c n =>
          simp only [lexLt] at h1 h2 ⊢
          by_cases hab : a = b
          · subst hab
            by_cases hbc : a = c
            · subst hbc
              simp only [if_true] at h1 h2 ⊢
              exact ih m n h1 h2
            · simp only [if_true, hbc, if_false] at h1 h2 ⊢
              exact h2
          · simp only [hab, if_false] at h1
            by_cases hbc : b = c
            · subst hbc
              simp only [hab, if_false]
              exact h1
            · simp only [hbc, if_false] at h2
              have hac : a ≠ c := by
                rintro rfl
                exact h.asymm h1 h2
              simp only [hac, if_false]
              exact h.tr a b c h1 h2
  conn := by
    intro l
    induction l with
    | nil =>
      intro m h1
      cases m with
      | nil => exact .inl rfl
      | cons b m => simp [lexLt] at h1
    | cons a l ih =>
      intro m h1
      cases m with
      | nil => exact .inr rfl
      | cons b m =>
        simp only [lexLt] at h1 ⊢
        by_cases hab : a = b
        · subst hab
          simp only [if_true] at h1 ⊢
          rcases ih m h1 with e | e
          · exact .inl (by rw [e])
          · exact .inr e
        · simp only [hab, Ne.symm hab, if_false] at h1 ⊢
          rcases h.conn a b h1 with e | e
          · exact absurd e hab
          · exact .inr e
  sym := by
    intro l
    induction l with
    | nil => intro m; cases m <;> rfl
    | cons a l ih =>
      intro m
      cases m with
      | nil => rfl
      | cons b m =>
        simp only [lexLt]
        by_cases hab : a = b
        · subst hab; simpa using ih m
        · simp only [hab, Ne.symm hab, if_false]; exact h.sym a b

theorem lin_name : Lin nameLt := by
  refine Lin.lex ⟨?_, ?_, ?_, ?_⟩
  · intro a; simp
  · intro a b c; simp only [Option.some.injEq, decide_eq_true_eq]; omega
  · intro a b h
    simp only [Option.some.injEq, decide_eq_false_iff_not, decide_eq_true_eq] at h ⊢
    by_cases e : a.toNat = b.toNat
    · exact .inl (Char.ext (UInt32.toNat_inj.mp e))
    · right; omega
  · intro a b; rfl

theorem lin_atom : Lin atomLt where
  irr := by
    intro a
    cases a with
    | str s => exact lin_name.irr s
    | int i => simp [atomLt]
  tr := by
    intro a b c
    cases a <;> cases b <;> cases c <;> simp only [atomLt] <;> try (intro h1 h2; first | cases h1 | cases h2)
    · exact lin_name.tr _ _ _
    · simp only [Option.some.injEq, decide_eq_true_eq]; omega
  conn := by
    intro a b
    cases a <;> cases b <;> simp only [atomLt] <;> intro h
    · rcases lin_name.conn _ _ h with e | e
      · exact .inl (by rw [e])
      · exact .inr e
    · cases h
    · cases h
    · simp only [Option.some.injEq, decide_eq_false_iff_not, decide_eq_true_eq, Atom.int.injEq] at h ⊢; omega
  sym := by
    intro a b
    cases a <;> cases b <;> simp only [atomLt] <;> try rfl
    exact lin_name.sym _ _

theorem lin_path : Lin pathLt := lin_atom.lex

/-! ### Sorting -/

theorem comparable_iff {β} (x : List Atom × β) : ∀ l : List (List Atom × β), comparable x l = true ↔ ∀ y ∈ l, (pathLt x.1 y.1).isSome = true
  | [] => by simp [comparable]
  | y :: l => by simp [comparable, comparable_iff x l]

theorem allComparable_iff {β} : ∀ l : List (List Atom × β), allComparable l = true ↔ l.Pairwise fun x y => (pathLt x.1 y.1).isSome = true
  | [] => by simp [allComparable]
  | x :: l => by simp [allComparable, comparable_iff, allComparable_iff l, List.pairwise_cons]

theorem insertSorted_perm {β} (x : List Atom × β) : ∀ l : List (List Atom × β), (insertSorted x l).Perm (x :: l)
  | [] => .refl _
  | y :: l => by
    simp only [insertSorted]
    split
    · exact ((insertSorted_perm x l).cons y).trans (.swap x y l)
    · exact .refl _

theorem foldr_insertSorted_perm {β} : ∀ l : List (List Atom × β), (l.foldr insertSorted []).Perm l
  | [] => .refl _
  | x :: l => (insertSorted_perm x _).trans ((foldr_insertSorted_perm l).cons x)

theorem insertSorted_sorted {β} (x : List Atom × β) : ∀ l : List (List Atom × β), l.Pairwise (fun a b => pathLt a.1 b.1 = some true) →
    (∀ y ∈ l, (pathLt x.1 y.1).isSome = true) → (∀ y ∈ l, y.1 ≠ x.1) → (insertSorted x l).Pairwise (fun a b => pathLt a.1 b.1 = some true)
  | [], _, _, _ => by simp [insertSorted]
  | y :: l, hs, hc, hn => by
    simp only [List.pairwise_cons] at hs
    simp only [insertSorted]
    split
    · next h =>
      refine List.pairwise_cons.mpr ⟨?_, insertSorted_sorted x l hs.2 (fun z hz => hc z (by simp [hz])) (fun z hz => hn z (by simp [hz]))⟩
      intro z hz
      rcases List.mem_cons.mp ((insertSorted_perm x l).mem_iff.mp hz) with rfl | hz
      · exact h
      · exact hs.1 z hz
    · next h =>
      have hxy : pathLt x.1 y.1 = some true := by
        have h1 := hc y (by simp)
        have h2 := lin_path.sym x.1 y.1
        rw [h1] at h2
        obtain ⟨b, hb⟩ := Option.isSome_iff_exists.mp h2.symm
        cases b with
        | true => exact absurd hb h
        | false =>
          rcases lin_path.conn _ _ hb with e | e
          · exact absurd e (hn y (by simp))
          · exact e
      refine List.pairwise_cons.mpr ⟨?_, List.pairwise_cons.mpr hs⟩
      intro z hz
      rcases List.mem_cons.mp hz with rfl | hz
      · exact hxy
      · exact lin_path.tr _ _ _ hxy (hs.1 z hz)

theorem foldr_insertSorted_sorted {β} : ∀ l : List (List Atom × β), l.Pairwise (fun x y => (pathLt x.1 y.1).isSome = true) → (l.map (·.1)).Nodup →
    (l.foldr insertSorted []).Pairwise (fun a b => pathLt a.1 b.1 = some true)
  | [], _, _ => by simp
  | x :: l, hc, hn => by
    simp only [List.pairwise_cons] at hc
    simp only [List.map_cons, List.nodup_cons] at hn
    refine insertSorted_sorted x _ (foldr_insertSorted_sorted l hc.2 hn.2) ?_ ?_
    · intro y hy
      exact hc.1 y ((foldr_insertSorted_perm l).mem_iff.mp hy)
    · intro y hy e
      exact hn.1 (by rw [← e]; exact List.mem_map_of_mem ((foldr_insertSorted_perm l).mem_iff.mp hy))

/-- The sort is the only sorted arrangement. -/
theorem sortPaths_eq {β} {l s : List (List Atom × β)} (hp : l.Perm s) (hs : s.Pairwise fun a b => pathLt a.1 b.1 = some true) : sortPaths l = some s := by
  have hsym : ∀ {x y : List Atom × β}, (pathLt x.1 y.1).isSome = true → (pathLt y.1 x.1).isSome = true := by
    intro x y h
    rw [← lin_path.sym]; exact h
  have hc : l.Pairwise fun x y => (pathLt x.1 y.1).isSome = true :=
    hp.symm.pairwise (hs.imp (fun h => by rw [h]; rfl)) hsym
  have hn : (l.map (·.1)).Nodup := by
    refine (hp.map (·.1)).nodup_iff.mpr ?_
    refine List.pairwise_map.mpr (hs.imp ?_)
    intro a b h e
    rw [e] at h
    exact lin_path.irr _ h
  have h1 := foldr_insertSorted_sorted l hc hn
  have h2 : l.foldr insertSorted [] = s :=
    List.Perm.eq_of_pairwise (fun a b _ _ h1 h2 => (lin_path.asymm h1 h2).elim) h1 hs ((foldr_insertSorted_perm l).trans hp)
  rw [sortPaths, if_pos ((allComparable_iff l).mpr hc), h2]

/-! ### Normal trees, and trees with sorted keys -/

mutual
/-- Dictionaries with string keys and lists, none of them empty. -/
def Tree.Norm {α} : Tree α → Prop
  | .leaf _ => True
  | .node kd f => f ≠ .nil ∧ ((kd = .dict ∧ (∀ k ∈ f.keys, ∃ s, k = .dict (.str s)) ∧ f.keys.Nodup) ∨ (kd = .list ∧ SeqFrom Key.seq 0 f.keys)) ∧ Forest.Norm f
def Forest.Norm {α} : Forest α → Prop
  | .nil => True
  | .cons _ t r => Tree.Norm t ∧ Forest.Norm r
end

/-- The key that the metadata keeps of a key. -/
def normKey (k : Key) : Key := if k.isDict then .dict (.str k.str) else .seq k.idx

theorem plainDict_keys {α} : ∀ f : Forest α, f.plainDict.keys = f.keys.map fun k => .dict (.str k.str)
  | .nil => rfl
  | .cons k t r => by simp [Forest.plainDict, Forest.keys, plainDict_keys r]

theorem plainList_keys {α} : ∀ (f : Forest α) (i : Nat), SeqFrom Key.seq i (f.plainList i).keys
  | .nil, i => trivial
  | .cons k t r, i => ⟨rfl, plainList_keys r (i + 1)⟩

mutual
theorem plain_norm {α} : ∀ t : Tree α, t.KeysOk → t.Full → Tree.Norm t.plain
  | .leaf a, _, _ => trivial
  | .node kd .nil, _, h => absurd rfl h.1
  | .node kd (.cons k t r), hk, hf => by
    rcases hk.1.split with ⟨h1, h2⟩ | ⟨c, h1, h2⟩
    · have hd := h1 k (by simp [Forest.keys])
      simp only [Tree.plain, hd, if_true]
      refine ⟨by simp, .inl ⟨rfl, ?_, ?_⟩, plain_norm t hk.2.1 hf.2.1, plainDict_norm r hk.2.2 hf.2.2⟩
      · intro x hx
        have : x ∈ (Forest.cons k t r).plainDict.keys := hx
        rw [plainDict_keys] at this
        obtain ⟨y, -, rfl⟩ := List.mem_map.mp this
        exact ⟨_, rfl⟩
      · show (Forest.cons k t r).plainDict.keys.Nodup
        rw [plainDict_keys]
        refine List.pairwise_map.mpr ((List.pairwise_map.mp h2).imp ?_)
        intro a b hab e
        simp only [Key.dict.injEq, Atom.str.injEq] at e
        exact hab e
    · have hkc : k = c 0 := h2.1
      have hd : k.isDict = false := by rw [hkc]; exact (h1 0).1
      simp only [Tree.plain, hd, Bool.false_eq_true, if_false]
      refine ⟨by simp, .inr ⟨rfl, ?_⟩, plain_norm t hk.2.1 hf.2.1, plainList_norm r 1 hk.2.2 hf.2.2⟩
      exact plainList_keys (Forest.cons k t r) 0
theorem plainDict_norm {α} : ∀ f : Forest α, f.KeysOk → f.Full → Forest.Norm f.plainDict
  | .nil, _, _ => trivial
  | .cons _ t r, hk, hf => ⟨plain_norm t hk.1 hf.1, plainDict_norm r hk.2 hf.2⟩
theorem plainList_norm {α} : ∀ (f : Forest α) (i : Nat), f.KeysOk → f.Full → Forest.Norm (f.plainList i)
  | .nil, _, _, _ => trivial
  | .cons _ t r, i, hk, hf => ⟨plain_norm t hk.1 hf.1, plainList_norm r (i + 1) hk.2 hf.2⟩
end

mutual
/-- The leaves of the plain form are those of the tree, under the keys that the metadata keeps. -/
theorem plain_flat {α} : ∀ t : Tree α, t.KeysOk → t.plain.flat true = (t.flat true).map fun x => (x.1.map normKey, x.2)
  | .leaf a, _ => rfl
  | .node kd .nil, _ => rfl
  | .node kd (.cons k t r), hk => by
    rcases hk.1.split with ⟨h1, h2⟩ | ⟨c, h1, h2⟩
    · have hd := h1 k (by simp [Forest.keys])
      have := plainDict_flat (.cons k t r) h1 hk.2
      simp only [Tree.plain, hd, if_true, Tree.flat, Forest.isEmpty, Bool.and_false, Bool.false_eq_true, if_false]
      exact this
    · have hkc : k = c 0 := h2.1
      have hd : k.isDict = false := by rw [hkc]; exact (h1 0).1
      have := plainList_flat c h1 (.cons k t r) 0 h2 hk.2
      simp only [Tree.plain, hd, Bool.false_eq_true, if_false, Tree.flat, Forest.isEmpty, Bool.and_false]
      exact this
theorem plainDict_flat {α} : ∀ f : Forest α, (∀ k ∈ f.keys, k.isDict = true) → f.KeysOk →
    f.plainDict.flat true = (f.flat true).map fun x => (x.1.map normKey, x.2)
  | .nil, _, _ => rfl
  | .cons k t r, hd, hk => by
    have h1 := hd k (by simp [Forest.keys])
    simp only [Forest.plainDict, Forest.flat, List.map_append, List.map_map]
    rw [plain_flat t hk.1, plainDict_flat r (fun x hx => hd x (by simp [Forest.keys, hx])) hk.2, List.map_map]
    simp [Function.comp_def, normKey, h1]
theorem plainList_flat {α} (c : Nat → Key) (hc : ∀ i, (c i).isDict = false ∧ (c i).idx = i ∧ (c i).name = .int i) :
    ∀ (f : Forest α) (i : Nat), SeqFrom c i f.keys → f.KeysOk → (f.plainList i).flat true = (f.flat true).map fun x => (x.1.map normKey, x.2)
  | .nil, _, _, _ => rfl
  | .cons k t r, i, hs, hk => by
    have h1 : k = c i := hs.1
    subst h1
    simp only [Forest.plainList, Forest.flat, List.map_append, List.map_map]
    rw [plain_flat t hk.1, plainList_flat c hc r (i + 1) hs.2 hk.2, List.map_map]
    simp [Function.comp_def, normKey, (hc i).1, (hc i).2.1]
end

theorem seqFrom_names : ∀ (l : List Key) (i : Nat), SeqFrom Key.seq i l → l.Nodup ∧ ∀ k ∈ l, ∃ j : Nat, k = .seq j ∧ i ≤ j
  | [], _, _ => by simp
  | k :: l, i, h => by
    obtain ⟨h1, h2⟩ := seqFrom_names l (i + 1) h.2
    have hk : k = .seq i := h.1
    subst hk
    refine ⟨List.nodup_cons.mpr ⟨?_, h1⟩, ?_⟩
    · intro hm
      obtain ⟨j, e, hj⟩ := h2 _ hm
      cases e
      omega
    · intro x hx
      rcases List.mem_cons.mp hx with rfl | hx
      · exact ⟨i, rfl, Nat.le_refl _⟩
      · obtain ⟨j, e, hj⟩ := h2 x hx
        exact ⟨j, e, by omega⟩

/-- The keys of a node of a normal tree are different and can be compared. -/
structure GoodKeys (l : List Key) : Prop where
  nodup : (l.map Key.name).Nodup
  comp : ∀ a ∈ l, ∀ b ∈ l, (atomLt a.name b.name).isSome = true
  inj : ∀ a ∈ l, ∀ b ∈ l, a.name = b.name → a = b

theorem norm_goodKeys {α} {kd : Kind} {f : Forest α} (h : Tree.Norm (.node kd f)) : GoodKeys f.keys := by
  have hname : ∀ (s : Name), (Key.dict (.str s)).name = .str s := fun _ => rfl
  have hseq : ∀ (i : Nat), (Key.seq i).name = .int i := fun _ => rfl
  have hstr : ∀ s t, (nameLt s t).isSome = true := by
    intro s t
    simp only [nameLt]
    induction s generalizing t with
    | nil => cases t <;> rfl
    | cons c s ih => cases t with
      | nil => rfl
      | cons d t =>
        simp only [lexLt]
        split
        · exact ih t
        · rfl
  rcases h.2.1 with ⟨-, h1, h2⟩ | ⟨-, h1⟩
  · have hinj : ∀ a ∈ f.keys, ∀ b ∈ f.keys, a.name = b.name → a = b := by
      intro a ha b hb e
      obtain ⟨s, rfl⟩ := h1 a ha
      obtain ⟨t, rfl⟩ := h1 b hb
      rw [hname, hname] at e
      cases e; rfl
    refine ⟨?_, ?_, hinj⟩
    · refine List.pairwise_map.mpr (h2.imp_of_mem ?_)
      intro a b ha hb hab e
      exact hab (hinj a ha b hb e)
    · intro a ha b hb
      obtain ⟨s, rfl⟩ := h1 a ha
      obtain ⟨t, rfl⟩ := h1 b hb
      exact hstr s t
  · obtain ⟨h2, h3⟩ := seqFrom_names _ _ h1
    have hinj : ∀ a ∈ f.keys, ∀ b ∈ f.keys, a.name = b.name → a = b := by
      intro a ha b hb e
      obtain ⟨i, rfl, -⟩ := h3 a ha
      obtain ⟨j, rfl, -⟩ := h3 b hb
      rw [hseq, hseq] at e
      simp only [Atom.int.injEq] at e
      rw [Int.ofNat_inj.mp e]
    refine ⟨?_, ?_, hinj⟩
    · refine List.pairwise_map.mpr (h2.imp_of_mem ?_)
      intro a b ha hb hab e
      exact hab (hinj a ha b hb e)
    · intro a ha b hb
      obtain ⟨i, rfl, -⟩ := h3 a ha
      obtain ⟨j, rfl, -⟩ := h3 b hb
      rfl

/-- Insert a child at its place in the order of the keys. -/
def insertChild {α} (k : Key) (t : Tree α) : Forest α → Forest α
  | .nil => .cons k t .nil
  | .cons k' t' r => if atomLt k'.name k.name = some true then .cons k' t' (insertChild k t r) else .cons k t (.cons k' t' r)

mutual
/-- The tree with the children of every node sorted by their keys. -/
def sortTree {α} : Tree α → Tree α
  | .leaf a => .leaf a
  | .node k f => .node k (sortForest f)
def sortForest {α} : Forest α → Forest α
  | .nil => .nil
  | .cons k t r => insertChild k (sortTree t) (sortForest r)
end

theorem insertChild_keys {α} (k : Key) (t : Tree α) : ∀ f : Forest α, (insertChild k t f).keys.Perm (k :: f.keys)
  | .nil => .refl _
  | .cons k' t' r => by
    simp only [insertChild]
    split
    · simp only [Forest.keys]
      exact ((insertChild_keys k t r).cons k').trans (.swap k k' _)
    · exact .refl _

theorem sortForest_keys {α} : ∀ f : Forest α, (sortForest f).keys.Perm f.keys
  | .nil => .refl _
  | .cons k t r => (insertChild_keys k _ _).trans ((sortForest_keys r).cons k)

theorem insertChild_ne {α} (k : Key) (t : Tree α) (f : Forest α) : insertChild k t f ≠ .nil := by
  cases f with
  | nil => simp [insertChild]
  | cons k' t' r => simp only [insertChild]; split <;> simp

theorem sortForest_ne {α} {f : Forest α} (h : f ≠ .nil) : sortForest f ≠ .nil := by
  cases f with
  | nil => exact absurd rfl h
  | cons k t r => exact insertChild_ne _ _ _

theorem insertChild_flat {α} (k : Key) (t : Tree α) : ∀ f : Forest α, ((insertChild k t f).flat true).Perm ((Forest.cons k t f).flat true)
  | .nil => .refl _
  | .cons k' t' r => by
    simp only [insertChild]
    split
    · have := insertChild_flat k t r
      simp only [Forest.flat] at this ⊢
      exact (this.append_left _).trans ((List.perm_append_comm_assoc _ _ _))
    · exact .refl _

mutual
theorem sortTree_flat {α} : ∀ t : Tree α, ((sortTree t).flat true).Perm (t.flat true)
  | .leaf a => .refl _
  | .node k .nil => .refl _
  | .node k (.cons key t r) => by
    have h := sortForest_flat (.cons key t r)
    have hne : (sortForest (.cons key t r)).isEmpty = false := by
      have := sortForest_ne (f := .cons key t r) (by simp)
      cases he : (sortForest (.cons key t r)).isEmpty with
      | false => rfl
      | true => exact absurd (Forest.isEmpty_iff.mp he) this
    have e : ((Forest.cons key t r).isEmpty) = false := rfl
    simp only [sortTree, Tree.flat, hne, e, Bool.and_false, Bool.false_eq_true, if_false]
    exact h
theorem sortForest_flat {α} : ∀ f : Forest α, ((sortForest f).flat true).Perm (f.flat true)
  | .nil => .refl _
  | .cons k t r => by
    simp only [sortForest]
    refine (insertChild_flat k _ _).trans ?_
    simp only [Forest.flat]
    exact ((sortTree_flat t).map _).append (sortForest_flat r)
end

/-- Sorted, with no path a prefix of another. -/
def Before {β} (x y : List Key × β) : Prop :=
  pathLt (x.1.map Key.name) (y.1.map Key.name) = some true ∧ ¬ x.1.map Key.name <+: y.1.map Key.name

theorem before_cons {β} (k : Key) (x y : List Key × β) (h : Before x y) : Before (k :: x.1, x.2) (k :: y.1, y.2) := by
  refine ⟨?_, ?_⟩
  · simp only [List.map_cons, pathLt, lexLt, if_true]; exact h.1
  · simp only [List.map_cons, List.cons_prefix_cons, true_and]; exact h.2

theorem insertChild_sorted {α} (k : Key) (t : Tree α) : ∀ f : Forest α, (f.keys.map Key.name).Pairwise (fun a b => atomLt a b = some true) →
    GoodKeys (k :: f.keys) → ((insertChild k t f).keys.map Key.name).Pairwise (fun a b => atomLt a b = some true)
  | .nil, _, _ => by simp [insertChild, Forest.keys]
  | .cons k' t' r, hs, hg => by
    simp only [Forest.keys, List.map_cons, List.pairwise_cons] at hs
    have hnd := hg.nodup
    simp only [Forest.keys, List.map_cons, List.nodup_cons, List.mem_cons, not_or] at hnd
    simp only [insertChild]
    split
    · next h =>
      simp only [Forest.keys, List.map_cons, List.pairwise_cons]
      refine ⟨?_, insertChild_sorted k t r hs.2 ⟨?_, ?_, ?_⟩⟩
      · intro z hz
        have hz' := ((insertChild_keys k t r).map Key.name).mem_iff.mp hz
        rcases List.mem_cons.mp hz' with rfl | hz'
        · exact h
        · exact hs.1 z hz'
      · simp only [List.map_cons, List.nodup_cons]; exact ⟨hnd.1.2, hnd.2.2⟩
      · intro a ha b hb
        refine hg.comp a ?_ b ?_ <;> simp only [Forest.keys, List.mem_cons] at ha hb ⊢
        · rcases ha with h | h
          · exact .inl h
          · exact .inr (.inr h)
        · rcases hb with h | h
          · exact .inl h
          · exact .inr (.inr h)
      · intro a ha b hb
        refine hg.inj a ?_ b ?_ <;> simp only [Forest.keys, List.mem_cons] at ha hb ⊢
        · rcases ha with h | h
          · exact .inl h
          · exact .inr (.inr h)
        · rcases hb with h | h
          · exact .inl h
          · exact .inr (.inr h)
    · next h =>
      have hlt : atomLt k.name k'.name = some true := by
        have h2 := hg.comp k' (by simp [Forest.keys]) k (by simp)
        obtain ⟨b, hb⟩ := Option.isSome_iff_exists.mp h2
        cases b with
        | true => exact absurd hb h
        | false =>
          rcases lin_atom.conn _ _ hb with e | e
          · exact absurd e.symm hnd.1.1
          · exact e
      simp only [Forest.keys, List.map_cons, List.pairwise_cons]
      refine ⟨?_, hs⟩
      intro z hz
      rcases List.mem_cons.mp hz with rfl | hz
      · exact hlt
      · exact lin_atom.tr _ _ _ hlt (hs.1 z hz)

theorem goodKeys_tail {k : Key} {l : List Key} (h : GoodKeys (k :: l)) : GoodKeys l where
  nodup := (List.nodup_cons.mp h.nodup).2
  comp := fun a ha b hb => h.comp a (by simp [ha]) b (by simp [hb])
  inj := fun a ha b hb => h.inj a (by simp [ha]) b (by simp [hb])

theorem goodKeys_perm {l m : List Key} (h : GoodKeys l) (hp : m.Perm l) : GoodKeys m where
  nodup := (hp.map _).nodup_iff.mpr h.nodup
  comp := fun a ha b hb => h.comp a (hp.mem_iff.mp ha) b (hp.mem_iff.mp hb)
  inj := fun a ha b hb => h.inj a (hp.mem_iff.mp ha) b (hp.mem_iff.mp hb)

theorem sortForest_sorted {α} : ∀ f : Forest α, GoodKeys f.keys → ((sortForest f).keys.map Key.name).Pairwise (fun a b => atomLt a b = some true)
  | .nil, _ => by simp [sortForest, Forest.keys]
  | .cons k t r, h => by
    refine insertChild_sorted k _ _ (sortForest_sorted r (goodKeys_tail h)) ?_
    exact goodKeys_perm h ((sortForest_keys r).cons k)

theorem flat_before {α} : ∀ f : Forest α, (f.keys.map Key.name).Pairwise (fun a b => atomLt a b = some true) →
    (∀ x ∈ f.toList, (x.2.flat true).Pairwise Before) → (f.flat true).Pairwise Before
  | .nil, _, _ => by simp [Forest.flat]
  | .cons k t r, hs, ht => by
    simp only [Forest.keys, List.map_cons, List.pairwise_cons] at hs
    simp only [Forest.flat]
    refine List.pairwise_append.mpr ⟨?_, flat_before r hs.2 (fun x hx => ht x (by simp [Forest.toList, hx])), ?_⟩
    · exact List.pairwise_map.mpr ((ht (k, t) (by simp [Forest.toList])).imp (fun h => before_cons k _ _ h))
    · intro x hx y hy
      obtain ⟨x', -, rfl⟩ := List.mem_map.mp hx
      obtain ⟨k', q, _, hk', hy', -⟩ := Forest.flat_head hy
      have hlt := hs.1 _ (List.mem_map_of_mem (f := Key.name) hy')
      have hne : k.name ≠ k'.name := by
        intro e
        rw [e] at hlt
        exact lin_atom.irr _ hlt
      refine ⟨?_, ?_⟩
      · simp only [hk', List.map_cons, pathLt, lexLt, hne, if_false]; exact hlt
      · simp only [hk', List.map_cons, List.cons_prefix_cons, hne, false_and, not_false_eq_true]

theorem insertChild_toList {α} (k : Key) (t : Tree α) : ∀ f : Forest α, (insertChild k t f).toList.Perm ((k, t) :: f.toList)
  | .nil => .refl _
  | .cons k' t' r => by
    simp only [insertChild]
    split
    · simp only [Forest.toList]
      exact ((insertChild_toList k t r).cons _).trans (.swap _ _ _)
    · exact .refl _

mutual
theorem sortTree_before {α} : ∀ t : Tree α, Tree.Norm t → ((sortTree t).flat true).Pairwise Before
  | .leaf a, _ => by simp [sortTree, Tree.flat]
  | .node k f, h => by
    simp only [sortTree, Tree.flat]
    split
    · simp
    · exact flat_before _ (sortForest_sorted f (norm_goodKeys h)) (sortForest_before f h.2.2)
theorem sortForest_before {α} : ∀ f : Forest α, Forest.Norm f → ∀ x ∈ (sortForest f).toList, (x.2.flat true).Pairwise Before
  | .nil, _, x, hx => by simp [sortForest, Forest.toList] at hx
  | .cons k t r, h, x, hx => by
    rcases List.mem_cons.mp ((insertChild_toList k (sortTree t) (sortForest r)).mem_iff.mp hx) with rfl | hx
    · exact sortTree_before t h.1
    · exact sortForest_before r h.2 x hx
end

theorem insertChild_norm {α} (k : Key) (t : Tree α) (ht : Tree.Norm t) : ∀ f : Forest α, Forest.Norm f → Forest.Norm (insertChild k t f)
  | .nil, _ => ⟨ht, trivial⟩
  | .cons k' t' r, h => by
    simp only [insertChild]
    split
    · exact ⟨h.1, insertChild_norm k t ht r h.2⟩
    · exact ⟨ht, h⟩

theorem sortForest_seq {α} : ∀ (f : Forest α) (i : Nat), SeqFrom Key.seq i f.keys → (sortForest f).keys = f.keys
  | .nil, _, _ => rfl
  | .cons k t r, i, h => by
    have hk : k = .seq i := h.1
    subst hk
    have ih := sortForest_seq r (i + 1) h.2
    simp only [sortForest]
    have hr : SeqFrom Key.seq (i + 1) (sortForest r).keys := by rw [ih]; exact h.2
    cases hs : sortForest r with
    | nil => rw [hs] at ih; simp [insertChild, Forest.keys] at ih ⊢; exact ih
    | cons k' t' r' =>
      rw [hs] at ih hr
      have hk' : k' = .seq (i + 1) := hr.1
      subst hk'
      have : ¬ atomLt (Key.seq (i + 1)).name (Key.seq i).name = some true := by
        simp only [Key.name, atomLt, Option.some.injEq, decide_eq_true_eq]; omega
      simp only [insertChild, this, if_false]
      simp only [Forest.keys] at ih ⊢
      rw [ih]

mutual
theorem sortTree_norm {α} : ∀ t : Tree α, Tree.Norm t → Tree.Norm (sortTree t)
  | .leaf _, _ => trivial
  | .node kd f, h => by
    refine ⟨sortForest_ne h.1, ?_, sortForest_norm f h.2.2⟩
    rcases h.2.1 with ⟨h1, h2, h3⟩ | ⟨h1, h2⟩
    · exact .inl ⟨h1, fun k hk => h2 k ((sortForest_keys f).mem_iff.mp hk), (sortForest_keys f).nodup_iff.mpr h3⟩
    · exact .inr ⟨h1, by rw [sortForest_seq f 0 h2]; exact h2⟩
theorem sortForest_norm {α} : ∀ f : Forest α, Forest.Norm f → Forest.Norm (sortForest f)
  | .nil, _ => trivial
  | .cons k t r, h => insertChild_norm k _ (sortTree_norm t h.1) _ (sortForest_norm r h.2)
end

mutual
theorem norm_keysOk {α} : ∀ t : Tree α, Tree.Norm t → t.KeysOk
  | .leaf _, _ => trivial
  | .node kd f, h => by
    refine ⟨?_, normF_keysOk f h.2.2⟩
    rcases h.2.1 with ⟨-, h2, h3⟩ | ⟨-, h2⟩
    · refine .inl ⟨?_, ?_⟩
      · intro k hk
        obtain ⟨s, rfl⟩ := h2 k hk
        rfl
      · refine List.pairwise_map.mpr (h3.imp_of_mem ?_)
        intro a b ha hb hab e
        obtain ⟨s, rfl⟩ := h2 a ha
        obtain ⟨u, rfl⟩ := h2 b hb
        simp only [Key.str, Key.name, Atom.toStr] at e
        exact hab (by rw [e])
    · exact .inr (.inr (.inl h2))
theorem normF_keysOk {α} : ∀ f : Forest α, Forest.Norm f → f.KeysOk
  | .nil, _ => trivial
  | .cons _ t r, h => ⟨norm_keysOk t h.1, normF_keysOk r h.2⟩
end

mutual
theorem norm_plain {α} : ∀ t : Tree α, Tree.Norm t → t.plain = t
  | .leaf _, _ => rfl
  | .node kd .nil, h => absurd rfl h.1
  | .node kd (.cons k t r), h => by
    rcases h.2.1 with ⟨h1, h2, -⟩ | ⟨h1, h2⟩
    · obtain ⟨s, rfl⟩ := h2 k (by simp [Forest.keys])
      have := normF_plainDict (.cons (.dict (.str s)) t r) h2 h.2.2
      have e : (Key.dict (.str s)).isDict = true := rfl
      simp only [Tree.plain, e, if_true, h1]
      rw [show Forest.cons (Key.dict (.str (Key.dict (.str s)).str)) t.plain r.plainDict = (Forest.cons (.dict (.str s)) t r).plainDict from rfl, this]
    · have hk : k = .seq 0 := h2.1
      subst hk
      have := normF_plainList (.cons (.seq 0) t r) 0 h2 h.2.2
      have e : (Key.seq 0).isDict = false := rfl
      simp only [Tree.plain, e, Bool.false_eq_true, if_false, h1]
      rw [show Forest.cons (Key.seq 0) t.plain (r.plainList 1) = (Forest.cons (.seq 0) t r).plainList 0 from rfl, this]
theorem normF_plainDict {α} : ∀ f : Forest α, (∀ k ∈ f.keys, ∃ s, k = .dict (.str s)) → Forest.Norm f → f.plainDict = f
  | .nil, _, _ => rfl
  | .cons k t r, hk, h => by
    obtain ⟨s, rfl⟩ := hk k (by simp [Forest.keys])
    simp only [Forest.plainDict, norm_plain t h.1, normF_plainDict r (fun x hx => hk x (by simp [Forest.keys, hx])) h.2]
    rfl
theorem normF_plainList {α} : ∀ (f : Forest α) (i : Nat), SeqFrom Key.seq i f.keys → Forest.Norm f → f.plainList i = f
  | .nil, _, _, _ => rfl
  | .cons k t r, i, hk, h => by
    have e : k = .seq i := hk.1
    subst e
    simp only [Forest.plainList, norm_plain t h.1, normF_plainList r (i + 1) hk.2 h.2]
end

/-! ### Sorting does not change the tree as a Python value -/

theorem insertChild_get {α} (k k' : Key) (t : Tree α) : ∀ f : Forest α, k ∉ f.keys → (insertChild k t f).get k' = if k = k' then some t else f.get k'
  | .nil, _ => rfl
  | .cons k2 t2 r, h => by
    simp only [Forest.keys, List.mem_cons, not_or] at h
    simp only [insertChild]
    split
    · simp only [Forest.get, insertChild_get k k' t r h.2]
      by_cases h1 : k2 = k'
      · subst h1; simp [h.1]
      · simp [h1]
    · rfl

theorem sortForest_get {α} (k : Key) : ∀ f : Forest α, f.keys.Nodup → (sortForest f).get k = (f.get k).map sortTree
  | .nil, _ => rfl
  | .cons k2 t r, h => by
    simp only [Forest.keys, List.nodup_cons] at h
    simp only [sortForest]
    rw [insertChild_get k2 k _ _ (fun hm => h.1 ((sortForest_keys r).mem_iff.mp hm)), sortForest_get k r h.2]
    simp only [Forest.get]
    split <;> rfl

theorem norm_child {α} : ∀ {f : Forest α} {k : Key} {t : Tree α}, Forest.Norm f → f.get k = some t → Tree.Norm t
  | .nil, _, _, _, h => by simp [Forest.get] at h
  | .cons k2 t2 r, k, t, hn, h => by
    simp only [Forest.get] at h
    split at h
    · cases h; exact hn.1
    · exact norm_child hn.2 h

theorem nodup_of_goodKeys {l : List Key} (h : GoodKeys l) : l.Nodup := nodup_of_map h.nodup

theorem sortTree_at {α} : ∀ (p : List Key) (t : Tree α), Tree.Norm t → (sortTree t).at_ p = (t.at_ p).map sortTree
  | [], t, _ => by cases t <;> rfl
  | k :: p, .leaf a, _ => rfl
  | k :: p, .node kd f, h => by
    simp only [sortTree, Tree.at_]
    rw [sortForest_get k f (nodup_of_goodKeys (norm_goodKeys h))]
    cases hg : f.get k with
    | none => rfl
    | some c => exact sortTree_at p c (norm_child h.2.2 hg)

/-! ### The tree of the entries -/

mutual
theorem mapLeaf_flat {α β} (g : α → Option β) (lv : Tree α → Tree β) (hg : ∀ a b, g a = some b → lv (.leaf a) = .leaf b) :
    ∀ (t : Tree α) (t' : Tree β), Tree.mapLeaf g t = some t' →
      t'.flat true = (t.flat true).map (fun x => (x.1, lv x.2)) ∧ t'.Full ∧ (t.KeysOk → t'.KeysOk)
  | .leaf a, t', h => by
    simp only [Tree.mapLeaf, Option.map_eq_some_iff] at h
    obtain ⟨b, hb, rfl⟩ := h
    simp [Tree.flat, hg a b hb, Tree.Full, Tree.KeysOk]
  | .node k .nil, t', h => by simp [Tree.mapLeaf] at h
  | .node k (.cons key t r), t', h => by
    simp only [Tree.mapLeaf, Option.map_eq_some_iff] at h
    obtain ⟨f', hf, rfl⟩ := h
    obtain ⟨h1, h2, h3, h4⟩ := mapLeafF_flat g lv hg (.cons key t r) f' hf
    have hne : f' ≠ .nil := by
      rintro rfl
      simp [Forest.keys] at h3
    have he : f'.isEmpty = false := by
      cases hx : f'.isEmpty with
      | false => rfl
      | true => exact absurd (Forest.isEmpty_iff.mp hx) hne
    have e : ((Forest.cons key t r).isEmpty) = false := rfl
    refine ⟨?_, ⟨hne, h2⟩, fun hk => ⟨by rw [h3]; exact hk.1, h4 hk.2⟩⟩
    simp only [Tree.flat, he, e, Bool.and_false, Bool.false_eq_true, if_false]
    exact h1
theorem mapLeafF_flat {α β} (g : α → Option β) (lv : Tree α → Tree β) (hg : ∀ a b, g a = some b → lv (.leaf a) = .leaf b) :
    ∀ (f : Forest α) (f' : Forest β), Forest.mapLeaf g f = some f' →
      f'.flat true = (f.flat true).map (fun x => (x.1, lv x.2)) ∧ f'.Full ∧ f'.keys = f.keys ∧ (f.KeysOk → f'.KeysOk)
  | .nil, f', h => by
    simp only [Forest.mapLeaf, Option.some.injEq] at h
    subst h
    simp [Forest.flat, Forest.Full, Forest.keys, Forest.KeysOk]
  | .cons k t r, f', h => by
    simp only [Forest.mapLeaf, Option.bind_eq_bind, Option.bind_eq_some_iff, Option.pure_def, Option.some.injEq] at h
    obtain ⟨t', ht, r', hr, rfl⟩ := h
    obtain ⟨h1, h2, h3⟩ := mapLeaf_flat g lv hg t t' ht
    obtain ⟨h4, h5, h6, h7⟩ := mapLeafF_flat g lv hg r r' hr
    refine ⟨?_, ⟨h2, h5⟩, by simp [Forest.keys, h6], fun hk => ⟨h3 hk.1, h7 hk.2⟩⟩
    simp [Forest.flat, h1, h4, Function.comp_def]
end

mutual
theorem mapLeaf_some {α β} (g : α → Option β) : ∀ t : Tree α, (∀ x ∈ t.flat true, ∃ a b, x.2 = .leaf a ∧ g a = some b) → ∃ t', Tree.mapLeaf g t = some t'
  | .leaf a, h => by
    obtain ⟨a', b, h1, h2⟩ := h ([], .leaf a) (by simp [Tree.flat])
    cases h1
    exact ⟨.leaf b, by simp [Tree.mapLeaf, h2]⟩
  | .node k .nil, h => by
    obtain ⟨a', b, h1, -⟩ := h ([], .node k .nil) (by simp [Tree.flat, Forest.isEmpty])
    cases h1
  | .node k (.cons key t r), h => by
    obtain ⟨f', hf⟩ := mapLeafF_some g (.cons key t r) (fun x hx => h x (by simpa [Tree.flat, Forest.isEmpty] using hx))
    exact ⟨.node k f', by simp [Tree.mapLeaf, hf]⟩
theorem mapLeafF_some {α β} (g : α → Option β) : ∀ f : Forest α, (∀ x ∈ f.flat true, ∃ a b, x.2 = .leaf a ∧ g a = some b) →
    ∃ f', Forest.mapLeaf g f = some f'
  | .nil, _ => ⟨.nil, rfl⟩
  | .cons k t r, h => by
    obtain ⟨t', ht⟩ := mapLeaf_some g t (fun x hx => by
      obtain ⟨a, b, h1, h2⟩ := h (k :: x.1, x.2) (by simp only [Forest.flat, List.mem_append, List.mem_map]; exact .inl ⟨x, hx, rfl⟩)
      exact ⟨a, b, h1, h2⟩)
    obtain ⟨r', hr⟩ := mapLeafF_some g r (fun x hx => h x (by simp only [Forest.flat, List.mem_append]; exact .inr hx))
    exact ⟨.cons k t' r', by simp [Forest.mapLeaf, ht, hr]⟩
end

theorem parseNat_dec (n : Nat) : parseNat (NameFormat.dec n) = some n := by
  have h1 := NameFormat.dec_ne_nil n
  have h2 := NameFormat.dec_digits n
  simp only [parseNat, NameFormat.intOf_dec]
  rw [if_pos]
  exact ⟨h1, NameFormat.digits_isDigit h2⟩

theorem jaxKey_nestedKey (k : Key) : (nestedKey k).jaxKey = some (normKey k) := by
  cases k with
  | seq i =>
    have : (Key.seq i).str = NameFormat.dec i := by
      simp only [Key.str, Key.name, Atom.toStr, NameFormat.showInt]
      rw [if_neg (by omega)]; rfl
    simp only [nestedKey, keyType, Key.isDict, Bool.false_eq_true, if_false, NestedKey.jaxKey, normKey, this, parseNat_dec]
    rfl
  | flat i =>
    have : (Key.flat i).str = NameFormat.dec i := by
      simp only [Key.str, Key.name, Atom.toStr, NameFormat.showInt]
      rw [if_neg (by omega)]; rfl
    simp only [nestedKey, keyType, Key.isDict, Bool.false_eq_true, if_false, NestedKey.jaxKey, normKey, this, parseNat_dec]
    rfl
  | dict a => rfl
  | attr n => rfl

theorem mapM_jaxKey : ∀ p : List Key, (p.map nestedKey).mapM NestedKey.jaxKey = some (p.map normKey)
  | [] => rfl
  | k :: p => by simp [List.mapM_cons, jaxKey_nestedKey, mapM_jaxKey p]

theorem mapM_mapM {α β γ} (b : α → Option β) (g : β → Option γ) (F : α → γ) : ∀ (l : List α) (r : List β), l.mapM b = some r →
    (∀ x ∈ l, ∀ y, b x = some y → g y = some (F x)) → r.mapM g = some (l.map F)
  | [], r, h, _ => by simp at h; subst h; rfl
  | x :: l, r, h, hg => by
    simp only [List.mapM_cons, Option.bind_eq_bind, Option.bind_eq_some_iff, Option.pure_def, Option.some.injEq] at h
    obtain ⟨y, hy, r', hr, rfl⟩ := h
    simp [List.mapM_cons, hg x (by simp) y hy, mapM_mapM b g F l r' hr (fun x hx => hg x (by simp [hx]))]

theorem mapM_mem {α β} (b : α → Option β) : ∀ (l : List α) (r : List β), l.mapM b = some r → ∀ x ∈ l, ∃ y, b x = some y
  | [], _, _, x, hx => by cases hx
  | a :: l, r, h, x, hx => by
    simp only [List.mapM_cons, Option.bind_eq_bind, Option.bind_eq_some_iff, Option.pure_def, Option.some.injEq] at h
    obtain ⟨y, hy, r', hr, rfl⟩ := h
    rcases List.mem_cons.mp hx with rfl | hx
    · exact ⟨y, hy⟩
    · exact mapM_mem b l r' hr x hx

theorem dropPrefixes_before {β} : ∀ l : List (List Key × β), l.Pairwise Before →
    dropPrefixes (l.map fun x => (x.1.map Key.name, x)) = l
  | [], _ => rfl
  | [x], _ => rfl
  | x :: y :: l, h => by
    have ih := dropPrefixes_before (y :: l) (List.pairwise_cons.mp h).2
    have hb := (List.pairwise_cons.mp h).1 y (by simp)
    simp only [List.map_cons, dropPrefixes] at ih ⊢
    rw [if_neg, ih]
    rintro ⟨-, h2⟩
    exact hb.2 (by rw [← h2]; exact List.take_prefix _ _)

/-- What a node or leaf is by itself. -/
def label {α} : Tree α → α ⊕ Kind
  | .leaf a => .inl a
  | .node k _ => .inr k

/-- Two Python values are equal: the same containers and leaves at the same paths (the order of the keys of a dictionary does not count). -/
def SameValue {α} (s t : Tree α) : Prop := ∀ p, (s.at_ p).map label = (t.at_ p).map label

/-- The value that the metadata keeps of a leaf. -/
def leafValue : Tree Info → Py
  | .leaf i => match i.value with
    | some v => .leaf (.entry v)
    | none => .pyNone
  | .node _ _ => .pyNone

/-- The nested tree is the sorted plain form of the tree of the value metadata. -/
theorem nested_sorted (pr : Char → Bool) (infos : Tree Info) (n : Nat) (oc : Option Bool) (z : Bool) (cu : Py) (st : Bool) (m : TreeMeta)
    (hk : infos.KeysOk) (hn : (infos.flat true).length ≤ n) (h : TreeMeta.build pr infos n oc z cu st false = some m) :
    ∃ t, Tree.mapLeaf (fun i => i.value.map P.entry) infos = some t ∧ t.KeysOk ∧ t.Full ∧ m.asNested = some (sortTree t.plain) := by
  simp only [TreeMeta.build, List.take_of_length_le hn, Option.bind_eq_bind, Option.bind_eq_some_iff, Option.pure_def] at h
  obtain ⟨es, he, h⟩ := h
  simp only [Bool.false_eq_true, if_false, Option.bind_some, Option.some.injEq] at h
  subst h
  obtain ⟨t, ht⟩ := mapLeaf_some (fun i => i.value.map P.entry) infos (by
    intro x hx
    obtain ⟨e, hb⟩ := mapM_mem _ _ _ he x hx
    obtain ⟨p, y⟩ := x
    cases y with
    | node => simp [Entry.build] at hb
    | leaf i =>
      simp only [Entry.build, Option.map_eq_some_iff] at hb
      obtain ⟨v, hv, -⟩ := hb
      exact ⟨i, .entry v, rfl, by simp [hv]⟩)
  obtain ⟨h1, h2, h3⟩ := mapLeaf_flat _ leafValue (by
    intro a b hab
    simp only [Option.map_eq_some_iff] at hab
    obtain ⟨v, hv, rfl⟩ := hab
    simp [leafValue, hv]) infos t ht
  have hto := h3 hk
  have hnorm := plain_norm t hto h2
  have hpf := plain_flat t hto
  have hitems : es.mapM Entry.item = some ((t.plain.flat true).map fun x => (x.1.map Key.name, x)) := by
    rw [hpf, h1, List.map_map, List.map_map]
    refine mapM_mapM _ _ _ _ _ he ?_
    intro x _ e hb
    obtain ⟨p, y⟩ := x
    cases y with
    | node => simp [Entry.build] at hb
    | leaf i =>
      simp only [Entry.build, Option.map_eq_some_iff] at hb
      obtain ⟨v, hv, rfl⟩ := hb
      simp only [Entry.item, Entry.path, mapM_jaxKey, Option.map_some, Function.comp_apply, leafValue, hv]
  have hbef := sortTree_before t.plain hnorm
  have hsort : sortPaths ((t.plain.flat true).map fun x => (x.1.map Key.name, x)) =
      some (((sortTree t.plain).flat true).map fun x => (x.1.map Key.name, x)) := by
    refine sortPaths_eq ((sortTree_flat t.plain).symm.map _) ?_
    exact List.pairwise_map.mpr (hbef.imp fun h => h.1)
  have hsn := sortTree_norm t.plain hnorm
  refine ⟨t, ht, hto, h2, ?_⟩
  simp only [TreeMeta.asNested, hitems, hsort, Option.bind_eq_bind, Option.bind_some, dropPrefixes_before _ hbef]
  have := C41_serialize (sortTree t.plain) (norm_keysOk _ hsn)
  rw [norm_plain _ hsn] at this
  exact this

/-- C51 (nested tree): the metadata built from any tree gives back, with `as_nested_tree`, the serialized form of the tree of its value metadata. -/
theorem C51_nested_tree (pr : Char → Bool) (infos : Tree Info) (n : Nat) (oc : Option Bool) (z : Bool) (cu : Py) (st : Bool) (m : TreeMeta)
    (hk : infos.KeysOk) (hn : (infos.flat true).length ≤ n) (h : TreeMeta.build pr infos n oc z cu st false = some m) :
    ∃ t s r, Tree.mapLeaf (fun i => i.value.map P.entry) infos = some t ∧ serialize true t = some s ∧ m.asNested = some r ∧ SameValue r s := by
  obtain ⟨t, ht, hto, h2, hn⟩ := nested_sorted pr infos n oc z cu st m hk hn h
  refine ⟨t, t.plain, sortTree t.plain, ht, C41_serialize t hto, hn, ?_⟩
  intro p
  rw [sortTree_at p _ (plain_norm t hto h2)]
  cases t.plain.at_ p with
  | none => rfl
  | some c => cases c <;> rfl

/-- C51 (nested tree, rich types): with rich types `as_nested_tree` gives the tree of the value metadata itself, with its own containers. -/
theorem C51_nested_rich (pr : Char → Bool) (infos : Tree Info) (n : Nat) (oc : Option Bool) (z : Bool) (cu : Py) (st : Bool) (m : TreeMeta)
    (h : TreeMeta.build pr infos n oc z cu st true = some m) : m.asNested = Tree.mapLeaf (fun i => i.value.map P.entry) infos := by
  simp only [TreeMeta.build, Option.bind_eq_bind, Option.bind_eq_some_iff, Option.pure_def] at h
  obtain ⟨es, he, h⟩ := h
  simp only [if_true, Option.bind_eq_some_iff, Option.map_eq_some_iff, Option.some.injEq] at h
  obtain ⟨tr, ⟨t, ht, rfl⟩, rfl⟩ := h
  simp [TreeMeta.asNested, ht]

/-- Written and read, the metadata of a tree still gives the sorted tree. -/
theorem nested_sorted_from_json (c : Classes) (pr : Char → Bool) (infos : Tree Info) (n : Nat) (oc : Option Bool) (z : Bool) (cu : Py) (st : Bool)
    (m : TreeMeta) (hk : infos.KeysOk) (hn : (infos.flat true).length ≤ n) (h : TreeMeta.build pr infos n oc z cu st false = some m)
    (ht : ∀ x ∈ infos.flat true, ∀ i, x.2 = .leaf i → i.typestr ≠ some tNamedTuple) :
    ∃ j m' t, m.toJson c = some j ∧ TreeMeta.fromJson c false j = some m' ∧
      Tree.mapLeaf (fun i => i.value.map P.entry) infos = some t ∧ t.KeysOk ∧ t.Full ∧ m'.asNested = some (sortTree t.plain) := by
  obtain ⟨h1, h2, -, -, -, -, -, hr⟩ := C51_build_entries pr infos n oc z cu st false m hk hn h
  obtain ⟨j, m', hj, hf, hes, -, -, -, -, hr', -, hrt⟩ := C51_json_round_trip c m h1 (by
    intro e he
    have := List.mem_map_of_mem (f := fun e : Entry => (e.keys.map fun k => k.name, some e.value.type, e.value.shape)) he
    rw [h2] at this
    obtain ⟨x, hx, e'⟩ := List.mem_map.mp this
    obtain ⟨p, y⟩ := x
    cases y with
    | node => simp at e'
    | leaf i =>
      simp only [Prod.mk.injEq] at e'
      intro hc
      exact ht _ hx i rfl (by rw [e'.2.1, hc])) (by rw [hr]; simp)
  obtain ⟨t, h3, h4, h5, h6⟩ := nested_sorted pr infos n oc z cu st m hk hn h
  rw [hr] at hf hr'
  refine ⟨j, m', t, hj, hf, h3, h4, h5, ?_⟩
  have : ∀ x : TreeMeta, x.rich = false → x.asNested = (x.entries.mapM Entry.item).bind fun items => (sortPaths items).bind fun s => fromKeypaths (dropPrefixes s) := by
    rintro ⟨_, _, _, _, _, ri, _⟩ rfl
    rfl
  rw [this m' hr', hes, ← this m hr]
  exact h6

/-- C51 (nested tree from the file): written and read, the metadata of a tree still gives the serialized tree. -/
theorem C51_nested_tree_from_json (c : Classes) (pr : Char → Bool) (infos : Tree Info) (n : Nat) (oc : Option Bool) (z : Bool) (cu : Py) (st : Bool)
    (m : TreeMeta) (hk : infos.KeysOk) (hn : (infos.flat true).length ≤ n) (h : TreeMeta.build pr infos n oc z cu st false = some m)
    (ht : ∀ x ∈ infos.flat true, ∀ i, x.2 = .leaf i → i.typestr ≠ some tNamedTuple) :
    ∃ j m' t s r, m.toJson c = some j ∧ TreeMeta.fromJson c false j = some m' ∧
      Tree.mapLeaf (fun i => i.value.map P.entry) infos = some t ∧ serialize true t = some s ∧ m'.asNested = some r ∧ SameValue r s := by
  obtain ⟨j, m', t, h1, h2, h3, h4, h5, h6⟩ := nested_sorted_from_json c pr infos n oc z cu st m hk hn h ht
  refine ⟨j, m', t, t.plain, sortTree t.plain, h1, h2, h3, C41_serialize t h4, h6, ?_⟩
  intro p
  rw [sortTree_at p _ (plain_norm t h4 h5)]
  cases t.plain.at_ p with
  | none => rfl
  | some c => cases c <;> rfl

/-! ### Placeholders -/

theorem lexLt_none_prefix {α} [DecidableEq α] (lt : α → α → Option Bool) : ∀ (x y z : List α), x <+: y → lexLt lt x z = none → lexLt lt y z = none
  | [], y, [], _, h => by simp [lexLt] at h
  | [], y, c :: z, _, h => by simp [lexLt] at h
  | a :: x, y, [], _, h => by simp [lexLt] at h
  | a :: x, [], c :: z, hp, _ => by simp at hp
  | a :: x, b :: y, c :: z, hp, h => by
    obtain ⟨rfl, hp'⟩ := List.cons_prefix_cons.mp hp
    simp only [lexLt] at h ⊢
    split
    · next e => rw [if_pos e] at h; exact lexLt_none_prefix lt x y z hp' h
    · next e => rw [if_neg e] at h; exact h

/-- What is between a path and a longer path that starts with it starts with it too. -/
theorem lexLt_between {α} [DecidableEq α] {lt : α → α → Option Bool} (hl : Lin lt) : ∀ (x y z : List α), x <+: z → lexLt lt x y = some true →
    lexLt lt y z = some true → x <+: y
  | [], y, z, _, _, _ => List.nil_prefix
  | a :: x, [], z, _, h, _ => by simp [lexLt] at h
  | a :: x, b :: y, [], hp, _, _ => by simp at hp
  | a :: x, b :: y, c :: z, hp, h1, h2 => by
    obtain ⟨rfl, hp'⟩ := List.cons_prefix_cons.mp hp
    simp only [lexLt] at h1 h2
    by_cases e : a = b
    · subst e
      simp only [if_true] at h1 h2
      exact List.cons_prefix_cons.mpr ⟨rfl, lexLt_between hl x y z hp' h1 h2⟩
    · simp only [e, Ne.symm e, if_false] at h1 h2
      exact (hl.asymm h1 h2).elim

/-- A path is a proper prefix of another in the list. -/
def isPlaceholder {β} (l : List (List Atom × β)) (x : List Atom × β) : Bool := l.any fun y => decide (x.1 ≠ y.1) && x.1.isPrefixOf y.1

theorem dropPrefixes_filter {β} : ∀ l : List (List Atom × β), l.Pairwise (fun a b => pathLt a.1 b.1 = some true) →
    dropPrefixes l = (l.filter fun x => !isPlaceholder l x).map (·.2)
  | [], _ => rfl
  | x :: l, h => by
    have h0 := h
    have hx : ∀ y ∈ l, isPlaceholder (x :: l) y = isPlaceholder l y := by
      intro y hy
      simp only [isPlaceholder, List.any_cons]
      have hlt := (List.pairwise_cons.mp h).1 y hy
      have : (decide (y.1 ≠ x.1) && y.1.isPrefixOf x.1) = false := by
        cases hc : y.1.isPrefixOf x.1 with
        | false => simp
        | true =>
          exfalso
          have hp := List.isPrefixOf_iff_prefix.mp hc
          rcases Classical.em (y.1 = x.1) with e | e
          · rw [e] at hlt; exact lin_path.irr _ hlt
          · have h2 : ∀ (p q : List Atom), p <+: q → p ≠ q → pathLt p q = some true := by
              intro p
              induction p with
              | nil => intro q _ hne; cases q with
                | nil => exact absurd rfl hne
                | cons => rfl
              | cons a p ih =>
                intro q hpq hne
                cases q with
                | nil => simp at hpq
                | cons b q =>
                  obtain ⟨rfl, hpq'⟩ := List.cons_prefix_cons.mp hpq
                  simp only [pathLt, lexLt, if_true]
                  exact ih q hpq' (fun e => hne (by rw [e]))
            exact lin_path.asymm hlt (h2 _ _ hp e)
      rw [this, Bool.false_or]
    have hf : (l.filter fun y => !isPlaceholder (x :: l) y) = l.filter fun y => !isPlaceholder l y := by
      refine List.filter_congr ?_
      intro y hy
      rw [hx y hy]
    have ih := dropPrefixes_filter l (List.pairwise_cons.mp h).2
    have hself : (decide (x.1 ≠ x.1) && x.1.isPrefixOf x.1) = false := by simp
    cases l with
    | nil => simp [dropPrefixes, isPlaceholder]
    | cons y l =>
      have hlt := (List.pairwise_cons.mp h).1
      simp only [dropPrefixes]
      have hiff : (x.1.length < y.1.length ∧ y.1.take x.1.length = x.1) ↔ isPlaceholder (x :: y :: l) x = true := by
        constructor
        · rintro ⟨h1, h2⟩
          simp only [isPlaceholder, List.any_cons, Bool.or_eq_true]
          refine .inr (.inl ?_)
          simp only [Bool.and_eq_true, decide_eq_true_eq]
          refine ⟨by intro e; rw [e] at h1; omega, List.isPrefixOf_iff_prefix.mpr ?_⟩
          rw [← h2]; exact List.take_prefix _ _
        · intro hp
          simp only [isPlaceholder, List.any_cons, hself, Bool.false_or] at hp
          have hpre : x.1 <+: y.1 := by
            simp only [Bool.or_eq_true, Bool.and_eq_true, decide_eq_true_eq, List.any_eq_true] at hp
            rcases hp with ⟨-, hp⟩ | ⟨w, hw, -, hp⟩
            · exact List.isPrefixOf_iff_prefix.mp hp
            · have h1 := hlt y (by simp)
              have h2 := (List.pairwise_cons.mp (List.pairwise_cons.mp h).2).1 w hw
              exact lexLt_between lin_atom _ _ _ (List.isPrefixOf_iff_prefix.mp hp) h1 h2
          have hne : x.1 ≠ y.1 := by
            intro e
            have := hlt y (by simp)
            rw [e] at this
            exact lin_path.irr _ this
          have hle := hpre.length_le
          have htake := List.prefix_iff_eq_take.mp hpre
          refine ⟨?_, htake.symm⟩
          rcases Nat.lt_or_ge x.1.length y.1.length with h | h
          · exact h
          · exact absurd (by rw [htake]; exact List.take_of_length_le h) hne
      have hfx := List.filter_cons (p := fun z => !isPlaceholder (x :: y :: l) z) (x := x) (xs := y :: l)
      by_cases hc : isPlaceholder (x :: y :: l) x = true
      · rw [if_pos (hiff.mpr hc), ih, hfx, hf]
        simp [hc]
      · rw [if_neg (fun e => hc (hiff.mp e)), ih, hfx, hf]
        simp [hc]

theorem isPlaceholder_perm {β} {l m : List (List Atom × β)} (h : l.Perm m) (x : List Atom × β) : isPlaceholder l x = isPlaceholder m x := by
  rw [Bool.eq_iff_iff]
  simp only [isPlaceholder, List.any_eq_true]
  constructor
  · rintro ⟨y, hy, h'⟩; exact ⟨y, h.mem_iff.mp hy, h'⟩
  · rintro ⟨y, hy, h'⟩; exact ⟨y, h.mem_iff.mpr hy, h'⟩

/-- Every entry is a proper prefix of, or equal to, one that is no placeholder. -/
theorem exists_max {β} (l : List (List Atom × β)) : ∀ (n : Nat) (x : List Atom × β), x ∈ l → (∀ y ∈ l, y.1.length ≤ x.1.length + n) →
    ∃ y ∈ l, x.1 <+: y.1 ∧ isPlaceholder l y = false
  | 0, x, hx, hb => by
    refine ⟨x, hx, List.prefix_rfl, ?_⟩
    simp only [isPlaceholder, List.any_eq_false, Bool.and_eq_true, decide_eq_true_eq, not_and]
    intro y hy hne hp
    have hp := List.isPrefixOf_iff_prefix.mp hp
    have := hb y hy
    exact hne (hp.eq_of_length (by have := hp.length_le; omega))
  | n + 1, x, hx, hb => by
    cases hc : isPlaceholder l x with
    | false => exact ⟨x, hx, List.prefix_rfl, hc⟩
    | true =>
      simp only [isPlaceholder, List.any_eq_true, Bool.and_eq_true, decide_eq_true_eq] at hc
      obtain ⟨y, hy, hne, hp⟩ := hc
      have hp := List.isPrefixOf_iff_prefix.mp hp
      have hlen : x.1.length < y.1.length := by
        rcases Nat.lt_or_ge x.1.length y.1.length with h | h
        · exact h
        · exact absurd (hp.eq_of_length (by have := hp.length_le; omega)) hne
      obtain ⟨w, hw, h1, h2⟩ := exists_max l n y hy (fun v hv => by have := hb v hv; omega)
      exact ⟨w, hw, hp.trans h1, h2⟩

theorem pairwise_of_forall_mem_nodup {α} {R : α → α → Prop} : ∀ {l : List α}, l.Nodup → (∀ a ∈ l, ∀ b ∈ l, a ≠ b → R a b) → l.Pairwise R
  | [], _, _ => .nil
  | a :: l, hn, h => by
    simp only [List.nodup_cons] at hn
    refine List.pairwise_cons.mpr ⟨?_, pairwise_of_forall_mem_nodup hn.2 (fun x hx y hy => h x (by simp [hx]) y (by simp [hy]))⟩
    intro b hb
    exact h a (by simp) b (by simp [hb]) (by rintro rfl; exact hn.1 hb)

theorem pairwise_mem_symm {α} {R : α → α → Prop} (hs : ∀ {x y}, R x y → R y x) : ∀ {l : List α}, l.Pairwise R → ∀ {a b}, a ∈ l → b ∈ l → a ≠ b → R a b
  | [], _, _, _, h, _, _ => by cases h
  | x :: l, h, a, b, ha, hb, hne => by
    have h := List.pairwise_cons.mp h
    rcases List.mem_cons.mp ha with rfl | ha' <;> rcases List.mem_cons.mp hb with rfl | hb'
    · exact absurd rfl hne
    · exact h.1 b hb'
    · exact hs (h.1 a ha')
    · exact pairwise_mem_symm hs h.2 ha' hb' hne

theorem comparable_of_filter {β} {l : List (List Atom × β)} (hn : (l.map (·.1)).Nodup) :
    allComparable (l.filter fun x => !isPlaceholder l x) = allComparable l := by
  rw [Bool.eq_iff_iff, allComparable_iff, allComparable_iff]
  constructor
  · intro h
    refine pairwise_of_forall_mem_nodup (nodup_of_map hn) ?_
    intro a ha b hb hab
    have hsym : ∀ {x y : List Atom × β}, (pathLt x.1 y.1).isSome = true → (pathLt y.1 x.1).isSome = true := by
      intro x y h
      rw [← lin_path.sym]; exact h
    have hbound : ∀ x ∈ l, ∀ y ∈ l, y.1.length ≤ x.1.length + (l.map fun z => z.1.length).sum := by
      intro x _ y hy
      have : ∀ (l : List (List Atom × β)), y ∈ l → y.1.length ≤ (l.map fun z => z.1.length).sum := by
        intro l
        induction l with
        | nil => intro h; cases h
        | cons z l ih =>
          intro h
          simp only [List.map_cons, List.sum_cons]
          rcases List.mem_cons.mp h with rfl | h
          · omega
          · have := ih h; omega
      have := this l hy
      omega
    obtain ⟨a', ha', hpa, hna⟩ := exists_max l _ a ha (hbound a ha)
    obtain ⟨b', hb', hpb, hnb⟩ := exists_max l _ b hb (hbound b hb)
    have hab' : (pathLt a'.1 b'.1).isSome = true := by
      by_cases e : a' = b'
      · subst e
        have : ∀ p : List Atom, (pathLt p p).isSome = true := by
          intro p
          induction p with
          | nil => rfl
          | cons a p ih => simpa [pathLt, lexLt] using ih
        exact this _
      · have hma : a' ∈ l.filter fun x => !isPlaceholder l x := by simp [ha', hna]
        have hmb : b' ∈ l.filter fun x => !isPlaceholder l x := by simp [hb', hnb]
        exact pairwise_mem_symm (fun h => hsym h) h hma hmb e
    have h1 : (pathLt a.1 b'.1).isSome = true := by
      cases hc : pathLt a.1 b'.1 with
      | some _ => rfl
      | none => rw [show pathLt a'.1 b'.1 = none from lexLt_none_prefix atomLt _ _ _ hpa hc] at hab'; cases hab'
    have h2 := hsym (x := a) (y := b') h1
    have h3 : (pathLt b.1 a.1).isSome = true := by
      cases hc : pathLt b.1 a.1 with
      | some _ => rfl
      | none => rw [show pathLt b'.1 a.1 = none from lexLt_none_prefix atomLt _ _ _ hpb hc] at h2; cases h2
    exact hsym (x := b) (y := a) h3
  · intro h
    exact h.sublist List.filter_sublist

theorem filter_noPlaceholder {β} {l : List (List Atom × β)} (x : List Atom × β) (hx : isPlaceholder l x = false) :
    isPlaceholder (l.filter fun y => !isPlaceholder l y) x = false := by
  simp only [isPlaceholder, List.any_eq_false] at hx ⊢
  intro y hy
  exact hx y (List.mem_filter.mp hy).1

theorem sort_filter {β} {l : List (List Atom × β)} (hn : (l.map (·.1)).Nodup) :
    ((sortPaths (l.filter fun x => !isPlaceholder l x)).map dropPrefixes) = (sortPaths l).map dropPrefixes := by
  have hcf := comparable_of_filter hn
  simp only [sortPaths, hcf]
  cases hc : allComparable l with
  | false => rfl
  | true =>
    simp only [if_true, Option.map_some, Option.some.injEq]
    have hp := (allComparable_iff l).mp hc
    have hs := foldr_insertSorted_sorted l hp hn
    have hsub : (l.filter fun x => !isPlaceholder l x).Pairwise fun x y => (pathLt x.1 y.1).isSome = true := hp.sublist List.filter_sublist
    have hnf : ((l.filter fun x => !isPlaceholder l x).map (·.1)).Nodup := hn.sublist (List.filter_sublist.map _)
    have hs' := foldr_insertSorted_sorted _ hsub hnf
    have hperm := foldr_insertSorted_perm l
    have hperm' := foldr_insertSorted_perm (l.filter fun x => !isPlaceholder l x)
    have heq : (l.filter fun x => !isPlaceholder l x).foldr insertSorted [] = (l.foldr insertSorted []).filter fun x => !isPlaceholder l x := by
      refine List.Perm.eq_of_pairwise (fun a b _ _ h1 h2 => (lin_path.asymm h1 h2).elim) hs' (hs.sublist List.filter_sublist) ?_
      exact hperm'.trans (hperm.symm.filter _)
    rw [heq, dropPrefixes_filter _ (hs.sublist List.filter_sublist), dropPrefixes_filter _ hs, List.filter_filter]
    congr 1
    refine List.filter_congr ?_
    intro x hx
    rw [isPlaceholder_perm hperm x]
    have : isPlaceholder ((l.foldr insertSorted []).filter fun x => !isPlaceholder l x) x = isPlaceholder (l.filter fun x => !isPlaceholder l x) x :=
      isPlaceholder_perm (hperm.filter _) x
    rw [this]
    cases hx' : isPlaceholder l x with
    | true => simp
    | false => simp [filter_noPlaceholder x hx']

/-- The path of an entry as `as_nested_tree` sorts it. -/
def Entry.names (e : Entry) : Option (List Atom) := e.path.map (·.map Key.name)

theorem mapM_item_filter (g : Entry → Bool) (q : List Atom × (List Key × Py) → Bool) : ∀ (l : List Entry) (r : List (List Atom × (List Key × Py))),
    l.mapM Entry.item = some r → (∀ e ∈ l, ∀ x, Entry.item e = some x → g e = q x) → (l.filter g).mapM Entry.item = some (r.filter q)
  | [], r, h, _ => by simp at h; subst h; rfl
  | e :: l, r, h, hg => by
    simp only [List.mapM_cons, Option.bind_eq_bind, Option.bind_eq_some_iff, Option.pure_def, Option.some.injEq] at h
    obtain ⟨x, hx, r', hr, rfl⟩ := h
    have ih := mapM_item_filter g q l r' hr (fun e he => hg e (by simp [he]))
    have he := hg e (by simp) x hx
    simp only [List.filter_cons, he]
    split
    · simp [List.mapM_cons, hx, ih]
    · exact ih

theorem mapM_item_mem : ∀ (l : List Entry) (r : List (List Atom × (List Key × Py))), l.mapM Entry.item = some r →
    (∀ p, p ∈ r.map (·.1) ↔ ∃ e ∈ l, e.names = some p)
  | [], r, h => by simp at h; subst h; simp
  | e :: l, r, h => by
    simp only [List.mapM_cons, Option.bind_eq_bind, Option.bind_eq_some_iff, Option.pure_def, Option.some.injEq] at h
    obtain ⟨x, hx, r', hr, rfl⟩ := h
    intro p
    have ih := mapM_item_mem l r' hr p
    have hn : e.names = some x.1 := by
      simp only [Entry.item, Option.map_eq_some_iff] at hx
      obtain ⟨q, hq, rfl⟩ := hx
      simp [Entry.names, hq]
    simp only [List.map_cons, List.mem_cons, ih, exists_eq_or_imp, hn, Option.some.injEq]
    constructor
    · rintro (rfl | h)
      · exact .inl rfl
      · exact .inr h
    · rintro (rfl | h)
      · exact .inl rfl
      · exact .inr h

theorem item_names {e : Entry} {x : List Atom × (List Key × Py)} (h : Entry.item e = some x) : e.names = some x.1 := by
  simp only [Entry.item, Option.map_eq_some_iff] at h
  obtain ⟨q, hq, rfl⟩ := h
  simp [Entry.names, hq]

/-- C51 (placeholders): an entry for a container that another entry lies in has no effect on the nested tree: leaving out all the entries whose path is a
proper prefix of the path of another one gives the same result (or the same exception). -/
theorem C51_placeholders (m : TreeMeta) (hr : m.rich = false) (hd : (m.entries.map Entry.names).Nodup) (g : Entry → Bool)
    (hg : ∀ e ∈ m.entries, g e = true ↔ ¬ ∃ e' ∈ m.entries, ∃ p p', e.names = some p ∧ e'.names = some p' ∧ p ≠ p' ∧ p <+: p')
    (hall : ∀ e ∈ m.entries, e.path.isSome = true) :
    ({ m with entries := m.entries.filter g } : TreeMeta).asNested = m.asNested := by
  obtain ⟨entries, oc, z, cu, st, ri, rt⟩ := m
  simp only at hr hd hg hall
  subst hr
  simp only [TreeMeta.asNested]
  have hi : ∃ r, entries.mapM Entry.item = some r := by
    clear hd hg
    induction entries with
    | nil => exact ⟨[], rfl⟩
    | cons e l ih =>
      obtain ⟨r, hr⟩ := ih (fun e he => hall e (by simp [he]))
      obtain ⟨p, hp⟩ := Option.isSome_iff_exists.mp (hall e (by simp))
      exact ⟨_, by simp only [List.mapM_cons, Entry.item, hp, Option.map_some, Option.bind_eq_bind, Option.bind_some, hr]; rfl⟩
  obtain ⟨r, hr⟩ := hi
  have hn : (r.map (·.1)).Nodup := by
    have : r.map (fun x => some x.1) = entries.map Entry.names := by
      have := mapM_map_eq Entry.item (fun x => some x.1) Entry.names entries r hr (fun a b _ h => (item_names h).symm)
      exact this
    rw [← this] at hd
    refine List.pairwise_map.mpr ((List.pairwise_map.mp hd).imp ?_)
    intro a b h e
    exact h (by rw [e])
  have hf : (entries.filter g).mapM Entry.item = some (r.filter fun x => !isPlaceholder r x) := by
    refine mapM_item_filter g _ entries r hr ?_
    intro e he x hx
    have hmem := mapM_item_mem entries r hr
    rw [Bool.eq_iff_iff, hg e he]
    simp only [Bool.not_eq_true', isPlaceholder, List.any_eq_false, Bool.and_eq_true, decide_eq_true_eq, not_and]
    have hxn := item_names hx
    constructor
    · intro h y hy hne hp
      obtain ⟨e', he', hn'⟩ := (hmem y.1).mp (List.mem_map_of_mem hy)
      exact h ⟨e', he', x.1, y.1, hxn, hn', hne, List.isPrefixOf_iff_prefix.mp hp⟩
    · rintro h ⟨e', he', p, p', h1, h2, h3, h4⟩
      rw [hxn] at h1
      cases h1
      have := (hmem p').mpr ⟨e', he', h2⟩
      obtain ⟨y, hy, rfl⟩ := List.mem_map.mp this
      exact h y hy h3 (List.isPrefixOf_iff_prefix.mpr h4)
  have hs := sort_filter hn
  simp only [hr, hf, Option.bind_eq_bind, Option.bind_some]
  rcases h1 : sortPaths (r.filter fun x => !isPlaceholder r x) with _ | a <;> rcases h2 : sortPaths r with _ | b <;>
    simp only [h1, h2, Option.map_none, Option.map_some, Option.some.injEq, reduceCtorEq] at hs
  · rfl
  · simp only [Option.bind_some, hs]

/-- C51 (failure): a sequence key and a dictionary key at the same place cannot be sorted, so the nested tree cannot be built. -/
theorem C51_mixed_keys_fails (m : TreeMeta) (hr : m.rich = false) (e1 e2 : Entry) (he : m.entries = [e1, e2]) (p q1 q2 : List Key) (i : Nat) (s : Name)
    (h1 : e1.path = some (p ++ .seq i :: q1)) (h2 : e2.path = some (p ++ .dict (.str s) :: q2)) : m.asNested = none := by
  obtain ⟨entries, oc, z, cu, st, ri, rt⟩ := m
  simp only at hr he
  subst hr he
  have hc : ∀ p : List Atom, pathLt (p ++ Atom.int i :: q1.map Key.name) (p ++ Atom.str s :: q2.map Key.name) = none := by
    intro p
    induction p with
    | nil => rfl
    | cons a p ih => simpa [pathLt, lexLt] using ih
  have hn : (p ++ Key.seq i :: q1).map Key.name = p.map Key.name ++ Atom.int i :: q1.map Key.name := by simp [Key.name]
  have hn2 : (p ++ Key.dict (.str s) :: q2).map Key.name = p.map Key.name ++ Atom.str s :: q2.map Key.name := by simp [Key.name, Atom.toStr]
  simp only [TreeMeta.asNested, List.mapM_cons, List.mapM_nil, Entry.item, h1, h2, Option.map_some, Option.bind_eq_bind, Option.bind_some, Option.pure_def,
    hn, hn2, sortPaths, allComparable, comparable, hc]
  rfl

example : ∃ m t s r, TreeMeta.build (fun _ => true) infoExample 2 none true .pyNone true false = some m ∧
    Tree.mapLeaf (fun i => i.value.map P.entry) infoExample = some t ∧ serialize true t = some s ∧ m.asNested = some r ∧ SameValue r s := by
  have hk : infoExample.KeysOk := by
    refine ⟨.inl ⟨?_, ?_⟩, trivial, ⟨.inr (.inr (.inl ?_)), trivial, trivial⟩, trivial⟩
    · intro k hk
      simp [Forest.keys] at hk
      rcases hk with rfl | rfl <;> rfl
    · simp [Forest.keys, Key.str, Key.name, Atom.toStr]
    · exact ⟨rfl, trivial⟩
  obtain ⟨t, s, r, h⟩ := C51_nested_tree (fun _ => true) infoExample 2 none true .pyNone true _ hk (by decide) rfl
  exact ⟨_, t, s, r, rfl, h⟩

/-- A placeholder for the container `a`, and an entry in it. -/
def placeholderExample : TreeMeta :=
  ⟨[⟨['x'], [⟨['a'], .dict⟩], ⟨['1'], false, none⟩⟩, ⟨['y'], [⟨['a'], .dict⟩, ⟨['b'], .dict⟩], ⟨['2'], false, none⟩⟩], none, false, .pyNone, false, false, none⟩

example : (placeholderExample.entries.map Entry.names).Nodup ∧ placeholderExample.asNested =
    some (dictNode [(['a'], dictNode [(['b'], .leaf (.entry ⟨['2'], false, none⟩))])]) := by decide

end Verif.TreeMetadata
