import Verif.Trees.Inferred
import Verif.Trees.NestingProps

/-! C142: the structure inferred from a directory. -/

namespace Verif.Trees.Inferred

open Nesting (look insAll' insAll'_spec AllDict look_nil join_cons C140_parts)

/-! ### Specification -/

/-- Specification: the files that are not parameters, by name. -/
def reserved : List Name := ["_sharding".toList, "_METADATA".toList, "array_metadatas".toList]

/-- Specification: the parts of a name between its dots. -/
def dotted (k : Name) (p : List Name) : Prop := p ≠ [] ∧ (∀ n ∈ p, '.' ∉ n) ∧ join ['.'] p = k

/-- Specification: two names stand in each other's way: they are the same, or one is the other with a dot and more behind it. -/
def clash (k k' : Name) : Prop := k = k' ∨ (∃ r, k' = k ++ '.' :: r) ∨ (∃ r, k = k' ++ '.' :: r)

/-! ### Parts -/

def dots (k : Name) : List Name := splitAux ['.'] 0 [] k

theorem split_dots (k : Name) : split ['.'] k = some (dots k) := rfl

theorem dots_ne (k : Name) : dots k ≠ [] := (C140_parts ['.'] k _ (split_dots k)).2

theorem join_dots (k : Name) : join ['.'] (dots k) = k := (C140_parts ['.'] k _ (split_dots k)).1

theorem splitAux_cons (c : Char) (acc s : Name) :
    splitAux ['.'] 0 acc (c :: s) = if c = '.' then acc.reverse :: splitAux ['.'] 0 [] s else splitAux ['.'] 0 (c :: acc) s := by
  rw [splitAux]
  by_cases h : c = '.'
  · subst h; simp [List.isPrefixOf]
  · have : ¬ '.' = c := fun e => h e.symm
    simp [List.isPrefixOf, h, this]

theorem splitAux_nodot : ∀ (s acc : Name), '.' ∉ acc → ∀ n ∈ splitAux ['.'] 0 acc s, '.' ∉ n := by
  intro s
  induction s with
  | nil => intro acc h n hn; simp [splitAux] at hn; subst hn; simpa using h
  | cons c s ih =>
    intro acc h n hn
    rw [splitAux_cons] at hn
    by_cases hc : c = '.'
    · rw [if_pos hc] at hn
      rcases List.mem_cons.1 hn with rfl | hn
      · simpa using h
      · exact ih [] (by simp) n hn
    · rw [if_neg hc] at hn
      refine ih (c :: acc) ?_ n hn
      rw [List.mem_cons]
      rintro (e | e)
      · exact hc e.symm
      · exact h e

theorem splitAux_append (r : Name) : ∀ (s acc : Name),
    splitAux ['.'] 0 acc (s ++ '.' :: r) = splitAux ['.'] 0 acc s ++ splitAux ['.'] 0 [] r := by
  intro s
  induction s with
  | nil => intro acc; rw [List.nil_append, splitAux_cons, if_pos rfl]; simp [splitAux]
  | cons c s ih =>
    intro acc
    rw [List.cons_append, splitAux_cons, splitAux_cons]
    by_cases hc : c = '.'
    · rw [if_pos hc, if_pos hc, ih]; rfl
    · rw [if_neg hc, if_neg hc, ih]

theorem splitAux_free : ∀ (s acc : Name), '.' ∉ s → splitAux ['.'] 0 acc s = [acc.reverse ++ s] := by
  intro s
  induction s with
  | nil => intro acc _; simp [splitAux]
  | cons c s ih =>
    intro acc h
    rw [List.mem_cons, not_or] at h
    rw [splitAux_cons, if_neg (fun e => h.1 e.symm), ih _ h.2]
    simp

theorem dots_join : ∀ (p : List Name), p ≠ [] → (∀ n ∈ p, '.' ∉ n) → dots (join ['.'] p) = p
  | [], h, _ => absurd rfl h
  | [n], _, h => by
    show splitAux ['.'] 0 [] n = [n]
    rw [splitAux_free n [] (h n (List.mem_cons_self ..))]; rfl
  | n :: m :: p, _, h => by
    have e : join ['.'] (n :: m :: p) = n ++ '.' :: join ['.'] (m :: p) := by rw [join_cons _ _ _ (by simp)]; simp
    rw [e]
    show splitAux ['.'] 0 [] _ = _
    rw [splitAux_append, splitAux_free n [] (h n (List.mem_cons_self ..))]
    have := dots_join (m :: p) (by simp) (fun x hx => h x (List.mem_cons_of_mem _ hx))
    unfold dots at this
    rw [this]; rfl

theorem dotted_iff (k : Name) (p : List Name) : dotted k p ↔ p = dots k := by
  constructor
  · rintro ⟨h1, h2, rfl⟩
    exact (dots_join p h1 h2).symm
  · rintro rfl
    exact ⟨dots_ne k, splitAux_nodot k [] (by simp), join_dots k⟩

theorem join_append : ∀ (p q : List Name), p ≠ [] → q ≠ [] → join ['.'] (p ++ q) = join ['.'] p ++ '.' :: join ['.'] q
  | [], _, h, _ => absurd rfl h
  | [n], q, _, hq => by
    show join ['.'] (n :: q) = n ++ _
    rw [join_cons _ _ _ hq]; simp
  | n :: m :: p, q, _, hq => by
    have := join_append (m :: p) q (by simp) hq
    rw [List.cons_append, join_cons _ _ _ (by simp), this, join_cons _ n (m :: p) (by simp)]
    simp

theorem prefix_iff (k k' : Name) : dots k <+: dots k' ↔ k = k' ∨ ∃ r, k' = k ++ '.' :: r := by
  constructor
  · rintro ⟨q, hq⟩
    by_cases h : q = []
    · subst h
      rw [List.append_nil] at hq
      left
      rw [← join_dots k, hq, join_dots]
    · right
      refine ⟨join ['.'] q, ?_⟩
      rw [← join_dots k', ← hq, join_append _ _ (dots_ne k) h, join_dots]
  · rintro (rfl | ⟨r, rfl⟩)
    · exact List.prefix_refl _
    · exact ⟨dots r, (splitAux_append r k []).symm⟩

/-! ### The loop -/

theorem addNested_eq (name : Name) : ∀ (p : List Name) (t : Tree Val), addNested t name p = insertFlat t p (.leaf (placeholder name))
  | [], t => by cases t <;> rfl
  | [n], t => by
    cases t with
    | leaf x => rfl
    | node k f => cases k <;> rfl
  | n :: m :: p, t => by
    cases t with
    | leaf x => rfl
    | node k f =>
      cases k <;> simp only [addNested, insertFlat]
      rw [addNested_eq name (m :: p)]

theorem skipped_iff (k : Name) : skipped k = true ↔ k ∈ reserved := by
  unfold skipped reserved
  simp only [Bool.or_eq_true, decide_eq_true_eq, List.mem_cons, List.not_mem_nil, or_false, or_assoc]

def entries (dir : List Name) : List (List Name × Val) := (dir.filter fun k => !skipped k).map fun k => (dots k, placeholder k)

theorem loop_eq : ∀ (dir : List Name) (t : Tree Val), loop t dir = insAll' t (entries dir)
  | [], t => rfl
  | k :: l, t => by
    rw [loop]
    by_cases h : skipped k = true
    · rw [if_pos h, loop_eq l t]
      simp [entries, h]
    · rw [if_neg h, split_dots]
      have e : entries (k :: l) = (dots k, placeholder k) :: entries l := by simp [entries, h]
      rw [e]
      show _ = (insertFlat t (dots k) (.leaf (placeholder k))).bind fun t1 => insAll' t1 (entries l)
      rw [Option.bind_some, addNested_eq]
      congr 1
      funext t1
      exact loop_eq l t1

theorem allDict_empty : AllDict (emptyDict : Tree Val) := by
  intro q k f h
  cases q with
  | nil => rw [look_nil] at h; cases h; rfl
  | cons n q => rw [Nesting.look_empty] at h; cases h

theorem entries_ne (dir : List Name) : ∀ x ∈ entries dir, x.1 ≠ [] := by
  intro x hx
  obtain ⟨k, _, rfl⟩ := List.mem_map.1 hx
  exact dots_ne k

theorem empty_leaf (q : List Name) (b : Val) : look (emptyDict : Tree Val) q ≠ some (.leaf b) := by
  cases q with
  | nil => rw [look_nil]; simp [emptyDict]
  | cons n q => rw [Nesting.look_empty]; simp

/-! ### The property -/

/-- C142: a structure can be inferred exactly if no two of the names, the reserved ones left aside, stand in each other's way. -/
theorem C142_accepts (dir : List Name) :
    (structure_ dir).isSome = true ↔ (dir.filter fun k => decide (k ∉ reserved)).Pairwise fun k k' => ¬ clash k k' := by
  unfold structure_
  rw [loop_eq, (insAll'_spec (entries dir) emptyDict (entries_ne dir) allDict_empty).1]
  have hf : (dir.filter fun k => !skipped k) = dir.filter fun k => decide (k ∉ reserved) := by
    refine List.filter_congr fun k _ => ?_
    have := skipped_iff k
    by_cases h : k ∈ reserved
    · simp [h, this.2 h]
    · have h' : skipped k = false := by
        cases hs : skipped k with
        | false => rfl
        | true => exact absurd (this.1 hs) h
      simp [h, h']
  have hr : ∀ k k', (¬ dots k <+: dots k' ∧ ¬ dots k' <+: dots k) ↔ ¬ clash k k' := by
    intro k k'
    rw [prefix_iff, prefix_iff, ← not_or]
    refine not_congr ⟨?_, ?_⟩
    · rintro ((h | h) | (h | h))
      · exact .inl h
      · exact .inr (.inl h)
      · exact .inl h.symm
      · exact .inr (.inr h)
    · rintro (h | h | h)
      · exact .inl (.inl h)
      · exact .inl (.inr h)
      · exact .inr (.inr h)
  unfold entries
  rw [hf, List.pairwise_map]
  simp only [hr]
  refine ⟨fun h => h.1, fun h => ⟨h, ?_⟩⟩
  intro x hx
  obtain ⟨k, _, rfl⟩ := List.mem_map.1 hx
  refine ⟨?_, fun q b _ => empty_leaf q b⟩
  cases hd : dots k with
  | nil => exact absurd hd (dots_ne k)
  | cons n q => exact Nesting.look_empty n q

/-- C142: its leaves are exactly the placeholders of the files that are not reserved, each at the parts of its name. -/
theorem C142_leaves (dir : List Name) (t : Tree Val) (h : structure_ dir = some t) (q : List Name) (v : Val) :
    look t q = some (.leaf v) ↔ ∃ k ∈ dir, k ∉ reserved ∧ dotted k q ∧ v = placeholder k := by
  unfold structure_ at h
  rw [loop_eq] at h
  rw [(insAll'_spec (entries dir) emptyDict (entries_ne dir) allDict_empty).2 t h q v]
  constructor
  · rintro (h | h)
    · exact absurd h (empty_leaf q v)
    · obtain ⟨k, hk, e⟩ := List.mem_map.1 h
      rw [List.mem_filter] at hk
      cases e
      refine ⟨k, hk.1, fun hr => ?_, (dotted_iff k _).2 rfl, rfl⟩
      have := (skipped_iff k).2 hr
      rw [this] at hk
      exact absurd hk.2 (by simp)
  · rintro ⟨k, hk, hr, hd, rfl⟩
    right
    refine List.mem_map.2 ⟨k, List.mem_filter.2 ⟨hk, ?_⟩, ?_⟩
    · cases hs : skipped k with
      | false => rfl
      | true => exact absurd ((skipped_iff k).1 hs) hr
    · rw [(dotted_iff k q).1 hd]

/-- C142: the name in a placeholder is the one it was made of, and a placeholder is known as one. -/
theorem C142_name (n : Name) : isPlaceholder (placeholder n) = true ∧ nameFrom (placeholder n) = some n := by
  have h1 : placeholderPrefix.isPrefixOf (placeholderPrefix ++ n) = true := by
    rw [List.isPrefixOf_iff_prefix]; exact List.prefix_append _ _
  have h2 : aggregatedPrefix.isPrefixOf (placeholderPrefix ++ n) = false := rfl
  have h3 : isPlaceholder (placeholder n) = true := by simp [isPlaceholder, placeholder, h1]
  refine ⟨h3, ?_⟩
  unfold nameFrom
  rw [if_pos h3]
  simp only [placeholder, h2, h1, if_true, Bool.false_eq_true, if_false, List.drop_left]

/-- C142: the same of a placeholder with the older prefix. -/
theorem C142_older_name (n : Name) :
    isPlaceholder (.str ("AGGREGATED://".toList ++ n)) = true ∧ nameFrom (.str ("AGGREGATED://".toList ++ n)) = some n := by
  have h1 : aggregatedPrefix.isPrefixOf (aggregatedPrefix ++ n) = true := by
    rw [List.isPrefixOf_iff_prefix]; exact List.prefix_append _ _
  show isPlaceholder (.str (aggregatedPrefix ++ n)) = true ∧ nameFrom (.str (aggregatedPrefix ++ n)) = some n
  have h3 : isPlaceholder (.str (aggregatedPrefix ++ n)) = true := by simp [isPlaceholder, h1]
  refine ⟨h3, ?_⟩
  unfold nameFrom
  rw [if_pos h3]
  simp only [h1, if_true, List.drop_left]

/-- C142: so from every leaf the name of its file is found again, and it is a file of the directory with these parts. -/
theorem C142_files (dir : List Name) (t : Tree Val) (h : structure_ dir = some t) (q : List Name) (v : Val) (hl : look t q = some (.leaf v)) :
    isPlaceholder v = true ∧ nameFrom v = some (join ['.'] q) ∧ join ['.'] q ∈ dir := by
  obtain ⟨k, hk, _, hd, rfl⟩ := (C142_leaves dir t h q v).1 hl
  refine ⟨(C142_name k).1, ?_, ?_⟩
  · rw [hd.2.2]; exact (C142_name k).2
  · rw [hd.2.2]; exact hk

/-- C142: a value that begins with neither prefix is not a placeholder, and asking for its name raises. -/
theorem C142_others (v : Val)
    (h : ∀ r, v ≠ .str ("PLACEHOLDER://".toList ++ r) ∧ v ≠ .str ("AGGREGATED://".toList ++ r)) : isPlaceholder v = false ∧ nameFrom v = none := by
  have h1 : isPlaceholder v = false := by
    cases v with
    | other => rfl
    | str s =>
      cases hp : isPlaceholder (.str s) with
      | false => rfl
      | true =>
        simp only [isPlaceholder, Bool.or_eq_true, List.isPrefixOf_iff_prefix] at hp
        rcases hp with ⟨r, hr⟩ | ⟨r, hr⟩
        · exact absurd (by rw [← hr]; rfl) (h r).1
        · exact absurd (by rw [← hr]; rfl) (h r).2
  exact ⟨h1, by simp [nameFrom, h1]⟩

/-- C142: the order in which the directory is listed does not matter. -/
theorem C142_order (d d' : List Name) (hp : d.Perm d') :
    ((structure_ d).isSome = true ↔ (structure_ d').isSome = true) ∧
    ∀ t t', structure_ d = some t → structure_ d' = some t' → ∀ q v, look t q = some (.leaf v) ↔ look t' q = some (.leaf v) := by
  refine ⟨?_, ?_⟩
  · rw [C142_accepts, C142_accepts]
    refine (hp.filter _).pairwise_iff ?_
    rintro a b h (e | e | e)
    · exact h (.inl e.symm)
    · exact h (.inr (.inr e))
    · exact h (.inr (.inl e))
  · intro t t' h h' q v
    rw [C142_leaves d t h, C142_leaves d' t' h']
    simp only [hp.mem_iff]

/-! ### Instances -/

/-- Two parameters under one key and the reserved files. -/
theorem C142_nonvacuous :
    (∃ t, structure_ ["_METADATA".toList, "a.b".toList, "_sharding".toList, "a.c".toList] = some t ∧
      look t ["a".toList, "c".toList] = some (.leaf (placeholder "a.c".toList)) ∧ look t ["_METADATA".toList] = none) ∧
    structure_ ["a".toList, "a.b".toList] = none ∧ nameFrom (.str "AGGREGATED://x".toList) = some "x".toList ∧ nameFrom (.str "x".toList) = none :=
  ⟨⟨_, rfl, rfl, rfl⟩, rfl, rfl, rfl⟩

/-- C142 (finding): files that hold no parameter, such as the file of strings, are taken for parameters. -/
theorem C142_other_files_fails :
    ¬ ∀ (dir : List Name) (t : Tree Val), structure_ dir = some t → ∀ q v, look t q = some (.leaf v) → v ≠ placeholder "_strings.json".toList := by
  intro h
  have hs : (structure_ ["a".toList, "_strings.json".toList]).isSome = true := rfl
  obtain ⟨t, ht⟩ := Option.isSome_iff_exists.1 hs
  refine h _ t ht ["_strings".toList, "json".toList] (placeholder "_strings.json".toList) ?_ rfl
  exact (C142_leaves _ t ht _ _).2 ⟨"_strings.json".toList, by decide, by decide, ⟨by decide, by decide, by decide⟩, rfl⟩

/-- C142 (finding): a string that was not made as a placeholder may be taken for one (it has the older prefix). -/
theorem C142_strings_fails : ¬ ∀ s : Name, isPlaceholder (.str s) = true → ∃ n, Val.str s = placeholder n := by
  intro h
  obtain ⟨n, hn⟩ := h ['A', 'G', 'G', 'R', 'E', 'G', 'A', 'T', 'E', 'D', ':', '/', '/', 'x'] (by decide)
  have e := congrArg (fun v => match v with | .str s => s.head? | .other => none) hn
  have e' : some 'A' = some 'P' := e
  exact absurd e' (by decide)

end Verif.Trees.Inferred
