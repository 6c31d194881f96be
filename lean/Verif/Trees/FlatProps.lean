import Verif.Trees.TreeLemmas

/-!
# Properties C40–C42: flat dictionaries, serialized trees and parameter names
-/

namespace Verif.Trees

open Verif

/-! ### Specification -/

mutual
/-- A tree of dictionaries with string keys. -/
def Tree.StrDict {α} : Tree α → Prop
  | .leaf _ => True
  | .node k f => k = .dict ∧ f.StrDict
def Forest.StrDict {α} : Forest α → Prop
  | .nil => True
  | .cons k t r => (∃ n, k = .dict (.str n)) ∧ t.StrDict ∧ r.StrDict
end

mutual
/-- Does the tree have a leaf? -/
def Tree.hasLeaf {α} : Tree α → Bool
  | .leaf _ => true
  | .node _ f => f.hasLeaf
def Forest.hasLeaf {α} : Forest α → Bool
  | .nil => false
  | .cons _ t r => t.hasLeaf || r.hasLeaf
end

mutual
/-- The tree without the subtrees that have no leaf. -/
def Tree.prune {α} : Tree α → Tree α
  | .leaf a => .leaf a
  | .node k f => .node k f.prune
def Forest.prune {α} : Forest α → Forest α
  | .nil => .nil
  | .cons k t r => if t.hasLeaf then .cons k t.prune r.prune else r.prune
end

mutual
/-- Does a property hold of every key name in the tree? -/
def Tree.AllNames {α} (P : Name → Prop) : Tree α → Prop
  | .leaf _ => True
  | .node _ f => f.AllNames P
def Forest.AllNames {α} (P : Name → Prop) : Forest α → Prop
  | .nil => True
  | .cons k t r => P k.str ∧ t.AllNames P ∧ r.AllNames P
end

mutual
/-- The plain form of a tree: dictionaries and records become dictionaries with string keys, sequences and other
containers become lists, leaves and empty nodes stay. -/
def Tree.plain {α} : Tree α → Tree α
  | .leaf a => .leaf a
  | .node k f => match f with
    | .nil => .node k .nil
    | .cons key t r =>
      if key.isDict then .node .dict (Forest.cons (.dict (.str key.str)) t.plain r.plainDict)
      else .node .list (Forest.cons (.seq 0) t.plain (r.plainList 1))
def Forest.plainDict {α} : Forest α → Forest α
  | .nil => .nil
  | .cons k t r => .cons (.dict (.str k.str)) t.plain r.plainDict
def Forest.plainList {α} (i : Nat) : Forest α → Forest α
  | .nil => .nil
  | .cons _ t r => .cons (.seq i) t.plain (r.plainList (i + 1))
end

/-- The keys are `0, 1, …` from `i`, all of the same class. -/
def SeqFrom (c : Nat → Key) : Nat → List Key → Prop
  | _, [] => True
  | i, k :: l => k = c i ∧ SeqFrom c (i + 1) l

/-- The keys JAX gives the children of one node. -/
def KeysOk (l : List Key) : Prop :=
  ((∀ k ∈ l, k.cls = 1) ∧ (l.map Key.str).Nodup) ∨ ((∀ k ∈ l, k.cls = 2) ∧ (l.map Key.str).Nodup) ∨
    SeqFrom Key.seq 0 l ∨ SeqFrom Key.flat 0 l

mutual
/-- Every node has keys of the kind JAX gives it, with distinct names. -/
def Tree.KeysOk {α} : Tree α → Prop
  | .leaf _ => True
  | .node _ f => Trees.KeysOk f.keys ∧ f.KeysOk
def Forest.KeysOk {α} : Forest α → Prop
  | .nil => True
  | .cons _ t r => t.KeysOk ∧ r.KeysOk
end

/-! ### C40: the flat dictionary -/

theorem foldl_put {κ β} [DecidableEq κ] : ∀ (l d : List (κ × β)), (l.map (·.1)).Nodup → (∀ x ∈ l, x.1 ∉ Assoc.keys d) →
    l.foldl (fun d x => Assoc.put d x.1 x.2) d = d ++ l
  | [], d, _, _ => by simp
  | x :: l, d, hn, hd => by
    simp only [List.map_cons, List.nodup_cons] at hn
    have hput : Assoc.put d x.1 x.2 = d ++ [x] := by
      have : ∀ d : List (κ × β), x.1 ∉ Assoc.keys d → Assoc.put d x.1 x.2 = d ++ [x] := by
        intro d
        induction d with
        | nil => intro _; rfl
        | cons y d ih =>
          intro h
          simp only [Assoc.keys, List.map_cons, List.mem_cons, not_or] at h
          obtain ⟨k, v⟩ := y
          simp only [Assoc.put, if_neg (Ne.symm h.1), List.cons_append]
          rw [ih h.2]
      exact this d (hd x (by simp))
    simp only [List.foldl_cons]
    rw [hput, foldl_put l (d ++ [x]) hn.2]
    · simp
    · intro y hy
      simp only [Assoc.keys, List.map_append, List.map_cons, List.map_nil, List.mem_append, List.mem_singleton, not_or]
      refine ⟨hd y (by simp [hy]), ?_⟩
      intro e
      exact hn.1 (by rw [← e]; exact List.mem_map_of_mem hy)

theorem toFlat_eq {α} (keep : Bool) (t : Tree α) (h : t.Distinct) :
    toFlat keep t = (t.flat keep).map fun x => (strPath x.1, x.2) := by
  have := foldl_put ((t.flat keep).map fun x => (strPath x.1, x.2)) []
    (by rw [List.map_map]; exact t.flat_nodup keep h) (by simp [Assoc.keys])
  rw [List.nil_append, List.foldl_map] at this
  exact this

/-- C40 (every leaf is in the flat dictionary under its path, and nothing else is): for a tree whose sibling keys
have distinct names, the flat dictionary maps the names along the path of every leaf (and of every empty node, if
those are kept) to it, and has no other entries and no duplicate keys. -/
theorem C40_flat_entries {α} (keep : Bool) (t : Tree α) (h : t.Distinct) (n : List Name) (v : Tree α) :
    ((n, v) ∈ toFlat keep t ↔
      ∃ p, strPath p = n ∧ t.at_ p = some v ∧ v.emptyOrLeaf = true ∧ (keep = false → ∃ a, v = .leaf a)) ∧
      ((toFlat keep t).map (·.1)).Nodup := by
  rw [toFlat_eq keep t h]
  refine ⟨?_, by rw [List.map_map]; exact t.flat_nodup keep h⟩
  simp only [List.mem_map, Prod.mk.injEq]
  constructor
  · rintro ⟨⟨p, w⟩, hx, h1, h2⟩
    simp only at h1 h2
    subst h2
    exact ⟨p, h1, (t.flat_spec keep h p w).mp hx⟩
  · rintro ⟨p, h1, h2⟩
    exact ⟨(p, v), (t.flat_spec keep h p v).mpr h2, h1, rfl⟩

/-- Inserting all the entries of a list. -/
def insAll {α} (t : Tree α) (l : List (List Name × Tree α)) : Option (Tree α) :=
  l.foldlM (fun t x => insertFlat t x.1 x.2) t

theorem insAll_nil {α} (t : Tree α) : insAll t [] = some t := rfl

theorem insAll_cons {α} (t : Tree α) (x : List Name × Tree α) (l) : insAll t (x :: l) = (insertFlat t x.1 x.2).bind fun t' => insAll t' l := rfl

theorem insAll_append {α} (t : Tree α) (l l') : insAll t (l ++ l') = (insAll t l).bind fun t' => insAll t' l' := by
  simp only [insAll, List.foldlM_append]
  rfl

theorem insAll_under {α} (n : Name) : ∀ (l : List (List Name × Tree α)) (f : Forest α) (c : Tree α),
    (∀ x ∈ l, x.1 ≠ []) → f.get (.dict (.str n)) = some c →
    insAll (.node .dict f) (l.map fun x => (n :: x.1, x.2)) =
      (insAll c l).map fun c' => .node .dict (f.put (.dict (.str n)) c')
  | [], f, c, _, hg => by simp [insAll_nil, Forest.put_same f _ c hg]
  | x :: l, f, c, hl, hg => by
    obtain ⟨p, v⟩ := x
    cases p with
    | nil => exact absurd rfl (hl ([], v) (by simp))
    | cons m p =>
      simp only [List.map_cons, insAll_cons, insertFlat, hg, Option.getD_some]
      cases hi : insertFlat c (m :: p) v with
      | none => simp
      | some c' =>
        simp only [Option.map_some, Option.bind_some]
        rw [insAll_under n l (f.put (.dict (.str n)) c') c' (fun x hx => hl x (by simp [hx])) (Forest.put_get_self _ _ _)]
        simp [Forest.put_put]

theorem insAll_under_new {α} (n : Name) (l : List (List Name × Tree α)) (f : Forest α)
    (h0 : l ≠ []) (hl : ∀ x ∈ l, x.1 ≠ []) (hg : f.get (.dict (.str n)) = none) :
    insAll (.node .dict f) (l.map fun x => (n :: x.1, x.2)) =
      (insAll emptyDict l).map fun c' => .node .dict (f.put (.dict (.str n)) c') := by
  cases l with
  | nil => exact absurd rfl h0
  | cons x l =>
    obtain ⟨p, v⟩ := x
    cases p with
    | nil => exact absurd rfl (hl ([], v) (by simp))
    | cons m p =>
      simp only [List.map_cons, insAll_cons, insertFlat, hg, Option.getD_none]
      cases hi : insertFlat emptyDict (m :: p) v with
      | none => simp
      | some c' =>
        simp only [Option.map_some, Option.bind_some]
        rw [insAll_under n l (f.put (.dict (.str n)) c') c' (fun x hx => hl x (by simp [hx])) (Forest.put_get_self _ _ _)]
        simp [Forest.put_put]

/-- The flattening by names. -/
def sflat {α} (t : Tree α) : List (List Name × Tree α) := (t.flat true).map fun x => (strPath x.1, x.2)
def Forest.sflat {α} (f : Forest α) : List (List Name × Tree α) := (f.flat true).map fun x => (strPath x.1, x.2)

theorem Forest.sflat_cons {α} (k : Key) (t : Tree α) (r : Forest α) :
    (Forest.cons k t r).sflat = ((Trees.sflat t).map fun x => (k.str :: x.1, x.2)) ++ r.sflat := by
  simp [Forest.sflat, Trees.sflat, Forest.flat, strPath]

mutual
theorem flat_keep_ne_nil {α} : ∀ (t : Tree α), t.flat true ≠ []
  | .leaf a => by simp [Tree.flat]
  | .node k f => by
    cases f with
    | nil => simp [Tree.flat, Forest.isEmpty]
    | cons k t r =>
      simp only [Tree.flat, Forest.isEmpty, Bool.and_false, Bool.false_eq_true, if_false, Forest.flat]
      have := flat_keep_ne_nil t
      simp [this]
end

theorem str_key {n : Name} : (Key.dict (.str n)).str = n := rfl

mutual
theorem build_tree {α} : ∀ (t : Tree α), t.StrDict → t.Distinct → t.emptyOrLeaf = false → insAll emptyDict (sflat t) = some t
  | .leaf a, _, _, h => by simp [Tree.emptyOrLeaf] at h
  | .node k f, hs, hd, h => by
    have h1 := build_forest f .nil hs.2 hd.1 hd.2 (by simp [Forest.get])
    have hk := hs.1
    subst hk
    simp only [Tree.emptyOrLeaf] at h
    have e : sflat (.node .dict f) = f.sflat := by simp [sflat, Forest.sflat, Tree.flat, h]
    rw [e]
    simpa [emptyDict, Forest.append] using h1
theorem build_forest {α} : ∀ (f g : Forest α), f.StrDict → (f.keys.map Key.str).Nodup → f.Distinct →
    (∀ k ∈ f.keys, g.get k = none) → insAll (.node .dict g) f.sflat = some (.node .dict (g.append f))
  | .nil, g, _, _, _, _ => by simp [Forest.sflat, Forest.flat, insAll_nil, Forest.append_nil]
  | .cons k t r, g, hs, hn, hd, hg => by
    obtain ⟨⟨n, rfl⟩, hst, hsr⟩ := hs
    simp only [Forest.keys, List.map_cons, List.nodup_cons] at hn
    have hgk := hg (.dict (.str n)) (by simp [Forest.keys])
    rw [Forest.sflat_cons, insAll_append, str_key]
    have h1 : insAll (.node .dict g) ((sflat t).map fun x => (n :: x.1, x.2)) = some (.node .dict (g.put (.dict (.str n)) t)) := by
      cases he : t.emptyOrLeaf with
      | true =>
        have e : sflat t = [([], t)] := by
          cases t with
          | leaf a => simp [sflat, Tree.flat, strPath]
          | node k f =>
            simp only [Tree.emptyOrLeaf] at he
            simp [sflat, Tree.flat, he, strPath]
        rw [e]
        simp [insAll_cons, insAll_nil, insertFlat, hgk]
      | false =>
        have hb := build_tree t hst hd.1 he
        cases t with
        | leaf a => simp [Tree.emptyOrLeaf] at he
        | node kk f =>
          simp only [Tree.emptyOrLeaf] at he
          rw [insAll_under_new n _ g (by simp [sflat, flat_keep_ne_nil]) ?_ hgk, hb]
          · rfl
          · intro x hx
            simp only [sflat, List.mem_map] at hx
            obtain ⟨y, hy, rfl⟩ := hx
            have := flat_nonempty_paths (k := kk) (f := f) (by simpa using he) y hy
            simpa [strPath] using this
    rw [h1, Option.bind_some, Forest.put_new g _ t hgk]
    rw [build_forest r _ hsr hn.2 hd.2]
    · rw [Forest.append_assoc]; rfl
    · intro k hk
      rw [Forest.get_append_none]
      refine ⟨hg k (by simp [Forest.keys, hk]), ?_⟩
      simp only [Forest.get]
      rw [if_neg]
      rintro rfl
      exact hn.1 (List.mem_map_of_mem hk)
end

theorem flat_of_emptyOrLeaf {α} {t : Tree α} (h : t.emptyOrLeaf = true) : t.flat true = [([], t)] := by
  cases t with
  | leaf a => rfl
  | node k f => simp only [Tree.emptyOrLeaf] at h; simp [Tree.flat, h]

theorem fromFlat_of_paths {α} (d : List (List Name × Tree α)) (h : ∀ x ∈ d, x.1 ≠ []) : fromFlat d = insAll emptyDict d := by
  have : Assoc.get d [] = none := by
    rw [Assoc.get_eq_none_iff]
    intro hm
    obtain ⟨x, hx, e⟩ := List.mem_map.mp hm
    exact h x hx e
  simp only [fromFlat, this]
  rfl

/-- C40 (round trip): flattening a nested dictionary with empty nodes kept, and rebuilding it, gives it back. -/
theorem C40_round_trip {α} (t : Tree α) (hs : t.StrDict) (hd : t.Distinct) : fromFlat (toFlat true t) = some t := by
  rw [toFlat_eq true t hd]
  cases he : t.emptyOrLeaf with
  | true => rw [flat_of_emptyOrLeaf he]; rfl
  | false =>
    rw [fromFlat_of_paths]
    · exact build_tree t hs hd he
    · intro x hx
      obtain ⟨y, hy, rfl⟩ := List.mem_map.mp hx
      cases t with
      | leaf a => simp [Tree.emptyOrLeaf] at he
      | node k f =>
        have := flat_nonempty_paths (k := k) (f := f) (keep := true) (by simpa [Tree.emptyOrLeaf] using he) y hy
        simpa [strPath] using this

mutual
theorem flat_false_nil {α} : ∀ (t : Tree α), t.hasLeaf = false → t.flat false = []
  | .leaf a, h => by simp [Tree.hasLeaf] at h
  | .node k f, h => by simpa [Tree.flat] using flatF_false_nil f (by simpa [Tree.hasLeaf] using h)
theorem flatF_false_nil {α} : ∀ (f : Forest α), f.hasLeaf = false → f.flat false = []
  | .nil, _ => rfl
  | .cons k t r, h => by
    simp only [Forest.hasLeaf, Bool.or_eq_false_iff] at h
    simp [Forest.flat, flat_false_nil t h.1, flatF_false_nil r h.2]
end

mutual
theorem flat_prune {α} : ∀ (t : Tree α), t.hasLeaf = true → t.flat false = t.prune.flat true
  | .leaf a, _ => rfl
  | .node k f, h => by
    simp only [Tree.hasLeaf] at h
    obtain ⟨h1, h2⟩ := flatF_prune f
    simp [Tree.flat, Tree.prune, h1, h2 h]
theorem flatF_prune {α} : ∀ (f : Forest α), f.flat false = f.prune.flat true ∧ (f.hasLeaf = true → f.prune.isEmpty = false)
  | .nil => ⟨rfl, by simp [Forest.hasLeaf]⟩
  | .cons k t r => by
    obtain ⟨h1, h2⟩ := flatF_prune r
    cases ht : t.hasLeaf with
    | true => simp [Forest.flat, Forest.prune, ht, flat_prune t ht, h1, Forest.isEmpty]
    | false =>
      simp only [Forest.flat, Forest.prune, ht, flat_false_nil t ht, h1]
      refine ⟨by simp, ?_⟩
      intro h
      simp only [Forest.hasLeaf, ht, Bool.false_or] at h
      simpa using h2 h
end

theorem prune_keys_sub {α} : ∀ (f : Forest α), List.Sublist f.prune.keys f.keys
  | .nil => by simp [Forest.prune, Forest.keys]
  | .cons k t r => by
    simp only [Forest.prune, Forest.keys]
    split
    · exact (prune_keys_sub r).cons_cons k
    · exact (prune_keys_sub r).cons k

mutual
theorem prune_ok {α} : ∀ (t : Tree α), (t.StrDict → t.prune.StrDict) ∧ (t.Distinct → t.prune.Distinct)
  | .leaf a => by simp [Tree.prune]
  | .node k f => by
    obtain ⟨h1, h2⟩ := pruneF_ok f
    refine ⟨fun h => ⟨h.1, h1 h.2⟩, fun h => ⟨?_, h2 h.2⟩⟩
    exact h.1.sublist ((prune_keys_sub f).map _)
theorem pruneF_ok {α} : ∀ (f : Forest α), (f.StrDict → f.prune.StrDict) ∧ (f.Distinct → f.prune.Distinct)
  | .nil => by simp [Forest.prune]
  | .cons k t r => by
    obtain ⟨h1, h2⟩ := prune_ok t
    obtain ⟨h3, h4⟩ := pruneF_ok r
    simp only [Forest.prune]
    split
    · exact ⟨fun h => ⟨h.1, h1 h.2.1, h3 h.2.2⟩, fun h => ⟨h2 h.1, h4 h.2⟩⟩
    · exact ⟨fun h => h3 h.2.2, fun h => h4 h.2⟩
end

theorem pruneF_nil {α} : ∀ (f : Forest α), f.hasLeaf = false → f.prune = .nil
  | .nil, _ => rfl
  | .cons k t r, h => by
    simp only [Forest.hasLeaf, Bool.or_eq_false_iff] at h
    simp only [Forest.prune, h.1, Bool.false_eq_true, if_false]
    exact pruneF_nil r h.2

/-- C40 (round trip without empty nodes): flattening a nested dictionary and rebuilding it gives it back without the
parts that have no leaf; the root stays, as `{}` if nothing is left. -/
theorem C40_round_trip_prunes {α} (t : Tree α) (hs : t.StrDict) (hd : t.Distinct) :
    fromFlat (toFlat false t) = some t.prune := by
  cases hl : t.hasLeaf with
  | true =>
    have h1 := C40_round_trip t.prune ((prune_ok t).1 hs) ((prune_ok t).2 hd)
    rw [toFlat_eq false t hd, flat_prune t hl, ← toFlat_eq true t.prune ((prune_ok t).2 hd)]
    exact h1
  | false =>
    rw [toFlat_eq false t hd, flat_false_nil t hl]
    cases t with
    | leaf a => simp [Tree.hasLeaf] at hl
    | node k f =>
      have hk := hs.1
      subst hk
      have : f.prune = .nil := pruneF_nil f (by simpa [Tree.hasLeaf] using hl)
      simp [Tree.prune, this, fromFlat, emptyDict, Assoc.get]

/-! #### With a separator -/

theorem isPrefixOf_head {c : Char} {s d : Name} {x : Char} (h : x ≠ c) : (c :: s).isPrefixOf (x :: d) = false := by
  simp [List.isPrefixOf, Ne.symm h]

theorem splitAux_name (c : Char) (s : Name) : ∀ (a acc rest : Name), c ∉ a →
    splitAux (c :: s) 0 acc (a ++ rest) = splitAux (c :: s) 0 (a.reverse ++ acc) rest
  | [], acc, rest, _ => rfl
  | x :: a, acc, rest, h => by
    simp only [List.mem_cons, not_or] at h
    simp only [List.cons_append, splitAux]
    rw [isPrefixOf_head (Ne.symm h.1)]
    simp only [Bool.false_eq_true, if_false]
    rw [splitAux_name c s a (x :: acc) rest h.2]
    simp

theorem splitAux_skip (sep : Name) : ∀ (s acc rest : Name), splitAux sep s.length acc (s ++ rest) = splitAux sep 0 acc rest
  | [], acc, rest => rfl
  | x :: s, acc, rest => by
    simp only [List.length_cons, List.cons_append, splitAux]
    exact splitAux_skip sep s acc rest

/-- Splitting a joined path gives the path back, if the first character of the separator is in no name. -/
theorem split_join (c : Char) (s : Name) (l : List Name) (h0 : l ≠ []) (h : ∀ a ∈ l, c ∉ a) :
    split (c :: s) (join (c :: s) l) = some l := by
  simp only [split, reduceCtorEq, if_false, Option.some.injEq]
  induction l with
  | nil => exact absurd rfl h0
  | cons a l ih =>
    cases l with
    | nil =>
      have h1 := splitAux_name c s a [] [] (h a (by simp))
      simp only [List.append_nil] at h1
      simp [join, h1, splitAux]
    | cons b l =>
      simp only [join, List.append_assoc]
      rw [splitAux_name c s a [] _ (h a (by simp))]
      simp only [List.append_nil, List.cons_append, splitAux]
      have hp : (c :: s).isPrefixOf (c :: (s ++ join (c :: s) (b :: l))) = true := by
        rw [List.isPrefixOf_iff_prefix]
        exact ⟨join (c :: s) (b :: l), by simp⟩
      rw [hp]
      simp only [if_true, List.length_cons, Nat.add_sub_cancel, List.reverse_reverse, List.cons.injEq, true_and]
      rw [splitAux_skip]
      exact ih (by simp) (fun a ha => h a (by simp [ha]))

mutual
theorem allNames_path {α} {P : Name → Prop} (keep : Bool) : ∀ (t : Tree α), t.AllNames P → ∀ x ∈ t.flat keep, ∀ a ∈ strPath x.1, P a
  | .leaf a, _, x, hx, b, hb => by simp [Tree.flat] at hx; subst hx; simp [strPath] at hb
  | .node k f, h, x, hx, b, hb => by
    simp only [Tree.flat] at hx
    split at hx
    · simp only [List.mem_singleton] at hx; subst hx; simp [strPath] at hb
    · exact allNamesF_path keep f h x hx b hb
theorem allNamesF_path {α} {P : Name → Prop} (keep : Bool) : ∀ (f : Forest α), f.AllNames P → ∀ x ∈ f.flat keep, ∀ a ∈ strPath x.1, P a
  | .nil, _, x, hx, b, hb => by simp [Forest.flat] at hx
  | .cons k t r, h, x, hx, b, hb => by
    simp only [Forest.flat, List.mem_append, List.mem_map] at hx
    rcases hx with ⟨y, hy, rfl⟩ | hx
    · simp only [strPath, List.map_cons, List.mem_cons] at hb
      rcases hb with rfl | hb
      · exact h.1
      · exact allNames_path keep t h.2.1 y hy b hb
    · exact allNamesF_path keep r h.2.2 x hx b hb
end

/-- Joined paths are distinct, if the first character of the separator is in no name and no path is empty. -/
theorem join_nodup {β} (c : Char) (s : Name) : ∀ (l : List (List Name × β)), (l.map (·.1)).Nodup → (∀ x ∈ l, x.1 ≠ []) →
    (∀ x ∈ l, ∀ a ∈ x.1, c ∉ a) → (l.map fun x => join (c :: s) x.1).Nodup := by
  intro l hn h0 hc
  simp only [List.Nodup, List.pairwise_map] at hn ⊢
  refine hn.imp_of_mem ?_
  intro a b ha hb hab e
  have h1 := split_join c s a.1 (h0 a ha) (hc a ha)
  have h2 := split_join c s b.1 (h0 b hb) (hc b hb)
  rw [e, h2] at h1
  exact hab (Option.some.inj h1).symm

theorem toFlatSep_eq {α} (c : Char) (s : Name) (keep : Bool) (t : Tree α) (hd : t.Distinct)
    (hc : t.AllNames fun n => c ∉ n) (h0 : ∀ x ∈ t.flat keep, x.1 ≠ []) :
    toFlatSep (c :: s) keep t = (t.flat keep).map fun x => (join (c :: s) (strPath x.1), x.2) := by
  simp only [toFlatSep]
  rw [toFlat_eq keep t hd, List.foldl_map]
  have := foldl_put ((t.flat keep).map fun x => (join (c :: s) (strPath x.1), x.2)) [] ?_ (by simp [Assoc.keys])
  · rw [List.nil_append, List.foldl_map] at this
    exact this
  · have h1 := join_nodup c s ((t.flat keep).map fun x => (strPath x.1, x.2))
      (by rw [List.map_map]; exact t.flat_nodup keep hd) ?_ ?_
    · simpa [List.map_map, Function.comp_def] using h1
    · intro x hx
      obtain ⟨y, hy, rfl⟩ := List.mem_map.mp hx
      simpa [strPath] using h0 y hy
    · intro x hx
      obtain ⟨y, hy, rfl⟩ := List.mem_map.mp hx
      exact allNames_path keep t hc y hy

/-- C40 (round trip with a separator): flattening a non-empty nested dictionary into joined names and rebuilding it
gives it back, if the first character of the separator occurs in no key. -/
theorem C40_round_trip_sep {α} (c : Char) (s : Name) (t : Tree α) (hs : t.StrDict) (hd : t.Distinct)
    (he : t.emptyOrLeaf = false) (hc : t.AllNames fun n => c ∉ n) :
    fromFlatSep (c :: s) (toFlatSep (c :: s) true t) = some t := by
  have h0 : ∀ x ∈ t.flat true, x.1 ≠ [] := by
    cases t with
    | leaf a => simp [Tree.emptyOrLeaf] at he
    | node k f => exact flat_nonempty_paths (by simpa [Tree.emptyOrLeaf] using he)
  rw [toFlatSep_eq c s true t hd hc h0]
  have h1 := build_tree t hs hd he
  rw [← h1]
  simp only [fromFlatSep, insAll, sflat]
  have : ∀ (l : List (List Key × Tree α)) (acc : Tree α), (∀ x ∈ l, x ∈ t.flat true) →
      (l.map fun x => (join (c :: s) (strPath x.1), x.2)).foldlM
        (fun t x => (split (c :: s) x.1).bind fun p => insertFlat t p x.2) acc =
      (l.map fun x => (strPath x.1, x.2)).foldlM (fun t x => insertFlat t x.1 x.2) acc := by
    intro l
    induction l with
    | nil => intro acc _; rfl
    | cons x l ih =>
      intro acc hl
      simp only [List.map_cons, List.foldlM_cons]
      rw [split_join c s _ (by simpa [strPath] using h0 x (hl x (by simp))) (allNames_path true t hc x (hl x (by simp)))]
      simp only [Option.bind_some]
      congr 1
      funext acc'
      exact ih acc' (fun y hy => hl y (by simp [hy]))
  exact this _ _ (fun _ h => h)

/-- C40 (finding: a separator of several characters can cut a key in the wrong place): with the separator `__`, the
value under `a_` then `b` comes back under `a` then `_b`, although no key contains the separator. -/
theorem C40_long_separator_fails {α} (v : Tree α) :
    let t := dictNode [(['a', '_'], dictNode [(['b'], v)])]
    v.emptyOrLeaf = true → fromFlatSep ['_', '_'] (toFlatSep ['_', '_'] true t) = some (dictNode [(['a'], dictNode [(['_', 'b'], v)])]) := by
  intro t h
  have : t.flat true = [([.dict (.str ['a', '_']), .dict (.str ['b'])], v)] := by
    simp [t, dictNode, Forest.ofList, Tree.flat, Forest.flat, Forest.isEmpty, flat_of_emptyOrLeaf h]
  simp only [toFlatSep, toFlat, this]
  rfl

/-- C40 (finding: a bare leaf does not survive a separator): it comes back as the value of the key `''`. -/
theorem C40_leaf_with_separator_fails {α} (c : Char) (s : Name) (a : α) :
    fromFlatSep (c :: s) (toFlatSep (c :: s) true (.leaf a)) = some (dictNode [([], .leaf a)]) := rfl

/-- C40 (finding: the separator in a key): with a one-character separator, a key that contains it is split. -/
theorem C40_separator_in_key_fails {α} (c : Char) (n m : Name) (hn : c ∉ n) (hm : c ∉ m) (a : α) :
    fromFlatSep [c] (toFlatSep [c] true (dictNode [(n ++ c :: m, .leaf a)])) = some (dictNode [(n, dictNode [(m, .leaf a)])]) := by
  have h1 : toFlatSep [c] true (dictNode [(n ++ c :: m, .leaf a)]) = [(n ++ c :: m, Tree.leaf a)] := rfl
  have h2 : split [c] (n ++ c :: m) = some [n, m] := by
    have := split_join c [] [n, m] (by simp) (by simp [hn, hm])
    simpa [join] using this
  rw [h1]
  simp only [fromFlatSep, List.foldlM_cons, List.foldlM_nil, h2]
  rfl

/-! #### With a target -/

/-- C40 (rebuilding on a target): the result is the target with every leaf replaced by the entry of the flat
dictionary under its path; a missing entry is an error. -/
theorem C40_target {α β} (d : List (List Name × Tree β)) (t : Tree α) (h : t.Distinct) :
    fromFlatTarget d t = t.mapPath false (fun p => Assoc.get d (strPath p)) [] := by
  rw [← unflatten_map]
  simp only [fromFlatTarget, toFlat_eq false t h, List.map_map, List.mapM_map]
  rfl

theorem get_of_nodup {κ β} [DecidableEq κ] {d : List (κ × β)} (hn : (d.map (·.1)).Nodup) {x} (hx : x ∈ d) : Assoc.get d x.1 = some x.2 :=
  Assoc.get_of_mem d hn x.1 x.2 hx

/-- C40 (round trip on any tree): a tree of any containers is rebuilt exactly from its flat dictionary and a target of
the same structure. -/
theorem C40_target_round_trip {α} (t : Tree α) (h : t.Distinct) : fromFlatTarget (toFlat false t) t = some t := by
  rw [C40_target _ t h]
  apply Tree.mapPath_id
  intro x hx
  rw [List.nil_append, toFlat_eq false t h]
  exact get_of_nodup (by rw [List.map_map]; exact t.flat_nodup false h) (x := (strPath x.1, x.2)) (List.mem_map_of_mem hx)

/-- C40 (finding: keys that differ only in type): the integer `i` and its decimal string are one entry of the flat
dictionary, so one of the two values is silently lost. -/
theorem C40_int_and_str_keys_fail {α} (i : Nat) (a b : α) :
    toFlat true (.node .dict (.cons (.dict (.int i)) (.leaf a) (.cons (.dict (.str (Atom.int i).toStr)) (.leaf b) .nil)))
      = [([(Atom.int i).toStr], Tree.leaf b)] := by
  have h : ∀ n : Name, Assoc.put [([n], Tree.leaf a)] [n] (Tree.leaf b) = [([n], Tree.leaf b)] := by
    intro n; simp [Assoc.put]
  exact h _

/-! Non-vacuity of C40. -/

def exTree : Tree Nat := dictNode [(['a'], dictNode [(['b'], .leaf 1), (['c'], emptyDict)]), (['d'], .leaf 2)]

example : exTree.StrDict ∧ exTree.emptyOrLeaf = false ∧ (exTree.AllNames fun n => '.' ∉ n) := by
  simp [exTree, dictNode, Forest.ofList, Tree.StrDict, Forest.StrDict, emptyDict, Tree.emptyOrLeaf, Forest.isEmpty,
    Tree.AllNames, Forest.AllNames, Key.str, Key.name, Atom.toStr]
example : exTree.Distinct := by
  simp [exTree, dictNode, Forest.ofList, Tree.Distinct, Forest.Distinct, emptyDict, Forest.keys, Key.str, Key.name, Atom.toStr]
example : toFlat true exTree = [([['a'], ['b']], .leaf 1), ([['a'], ['c']], emptyDict), ([['d']], .leaf 2)] := by decide
example : exTree.prune = dictNode [(['a'], dictNode [(['b'], .leaf 1)]), (['d'], .leaf 2)] := by decide

end Verif.Trees
