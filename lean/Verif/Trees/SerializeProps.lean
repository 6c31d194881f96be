import Verif.Trees.FlatProps

/-!
# Properties C41, C42: serialized trees and parameter names
-/

namespace Verif.Trees

open Verif

mutual
/-- No node of the tree is empty. -/
def Tree.Full {α} : Tree α → Prop
  | .leaf _ => True
  | .node _ f => f ≠ .nil ∧ f.Full
def Forest.Full {α} : Forest α → Prop
  | .nil => True
  | .cons _ t r => t.Full ∧ r.Full
end

/-! ### C41 -/

def insKAll {α} (t : Tree α) (l : List (List Key × Tree α)) : Option (Tree α) :=
  l.foldlM (fun t x => insertKey t x.1 x.2) t

theorem insKAll_nil {α} (t : Tree α) : insKAll t [] = some t := rfl

theorem insKAll_cons {α} (t : Tree α) (x : List Key × Tree α) (l) : insKAll t (x :: l) = (insertKey t x.1 x.2).bind fun t' => insKAll t' l := rfl

theorem insKAll_append {α} (t : Tree α) (l l') : insKAll t (l ++ l') = (insKAll t l).bind fun t' => insKAll t' l' := by
  simp only [insKAll, List.foldlM_append]
  rfl

theorem insKAll_under {α} (k : Key) (hk : k.isDict = true) : ∀ (l : List (List Key × Tree α)) (f : Forest α) (c : Tree α),
    (∀ x ∈ l, x.1 ≠ []) → f.get (.dict (.str k.str)) = some c →
    insKAll (.node .dict f) (l.map fun x => (k :: x.1, x.2)) =
      (insKAll c l).map fun c' => .node .dict (f.put (.dict (.str k.str)) c')
  | [], f, c, _, hg => by simp [insKAll_nil, Forest.put_same f _ c hg]
  | x :: l, f, c, hl, hg => by
    obtain ⟨p, v⟩ := x
    cases p with
    | nil => exact absurd rfl (hl ([], v) (by simp))
    | cons m p =>
      simp only [List.map_cons, insKAll_cons, insertKey, hk, if_true, hg, Option.getD_some]
      cases hi : insertKey c (m :: p) v with
      | none => simp
      | some c' =>
        simp only [Option.map_some, Option.bind_some]
        rw [insKAll_under k hk l (f.put (.dict (.str k.str)) c') c' (fun x hx => hl x (by simp [hx])) (Forest.put_get_self _ _ _)]
        simp [Forest.put_put]

theorem insertKey_dict {α} {k : Key} (hk : k.isDict = true) (k2 : Key) (p : List Key) (v : Tree α) (f : Forest α) :
    insertKey (.node .dict f) (k :: k2 :: p) v =
      (insertKey ((f.get (.dict (.str k.str))).getD (container k2)) (k2 :: p) v).map fun c => .node .dict (f.put (.dict (.str k.str)) c) := by
  rw [insertKey.eq_def]
  simp only [hk, if_true]

theorem insertKey_list {α} {k : Key} (hk : k.isDict = false) (k2 : Key) (p : List Key) (v : Tree α) (f : Forest α) :
    insertKey (.node .list f) (k :: k2 :: p) v =
      (extendList f k.idx (container k2)).bind fun f' => (f'.get (.seq k.idx)).bind fun c =>
        (insertKey c (k2 :: p) v).bind fun c' => some (.node .list (f'.put (.seq k.idx) c')) := by
  rw [insertKey.eq_def]
  simp only [hk, Bool.false_eq_true, if_false]
  rfl

theorem insKAll_under_new {α} (k k2 : Key) (hk : k.isDict = true) (p : List Key) (v : Tree α) (l : List (List Key × Tree α)) (f : Forest α)
    (hl : ∀ x ∈ l, x.1 ≠ []) (hg : f.get (.dict (.str k.str)) = none) :
    insKAll (.node .dict f) (((k2 :: p, v) :: l).map fun x => (k :: x.1, x.2)) =
      (insKAll (container k2) ((k2 :: p, v) :: l)).map fun c' => .node .dict (f.put (.dict (.str k.str)) c') := by
  simp only [List.map_cons, insKAll_cons]
  rw [insertKey_dict hk, hg, Option.getD_none]
  cases hi : insertKey (container k2) (k2 :: p) v with
  | none => simp
  | some c' =>
    simp only [Option.map_some, Option.bind_some]
    rw [insKAll_under k hk l (f.put (.dict (.str k.str)) c') c' hl (Forest.put_get_self _ _ _)]
    simp [Forest.put_put]

theorem Forest.length_put {α} : ∀ (f : Forest α) (k : Key) (v : Tree α), (f.get k).isSome = true → (f.put k v).length = f.length
  | .nil, k, v, h => by simp [Forest.get] at h
  | .cons k' t r, k, v, h => by
    simp only [Forest.get] at h
    simp only [Forest.put]
    split
    · rfl
    · next e =>
      rw [if_neg e] at h
      simp [Forest.length, Forest.length_put r k v h]

theorem insKAll_list {α} (k : Key) (hk : k.isDict = false) : ∀ (l : List (List Key × Tree α)) (f : Forest α) (c : Tree α),
    (∀ x ∈ l, x.1 ≠ []) → k.idx < f.length → f.get (.seq k.idx) = some c →
    insKAll (.node .list f) (l.map fun x => (k :: x.1, x.2)) =
      (insKAll c l).map fun c' => .node .list (f.put (.seq k.idx) c')
  | [], f, c, _, _, hg => by simp [insKAll_nil, Forest.put_same f _ c hg]
  | x :: l, f, c, hl, hi, hg => by
    obtain ⟨p, v⟩ := x
    cases p with
    | nil => exact absurd rfl (hl ([], v) (by simp))
    | cons m p =>
      have he : ∀ w : Tree α, extendList f k.idx w = some f := by
        intro w
        simp only [extendList]
        rw [if_neg (by omega), if_neg (by omega)]
      simp only [List.map_cons, insKAll_cons, insertKey, hk, Bool.false_eq_true, if_false, he]
      simp only [bind, Option.bind_some, hg, pure]
      cases hi' : insertKey c (m :: p) v with
      | none => simp
      | some c' =>
        simp only [Option.bind_some]
        rw [insKAll_list k hk l (f.put (.seq k.idx) c') c' (fun x hx => hl x (by simp [hx]))
          (by rw [Forest.length_put _ _ _ (by simp [hg])]; exact hi) (Forest.put_get_self _ _ _)]
        simp [Forest.put_put]

theorem Forest.get_append_self {α} : ∀ (f : Forest α) (k : Key) (v : Tree α), f.get k = none → (f.append (.cons k v .nil)).get k = some v
  | .nil, k, v, _ => by simp [Forest.append, Forest.get]
  | .cons k' t r, k, v, h => by
    simp only [Forest.get] at h
    split at h
    · cases h
    · next e => simp [Forest.append, Forest.get, e, Forest.get_append_self r k v h]

theorem Forest.length_append {α} : ∀ (f g : Forest α), (f.append g).length = f.length + g.length
  | .nil, g => by simp [Forest.append, Forest.length]
  | .cons k t r, g => by simp only [Forest.append, Forest.length, Forest.length_append r g]; omega

theorem insKAll_list_new {α} (k k2 : Key) (hk : k.isDict = false) (p : List Key) (v : Tree α) (l : List (List Key × Tree α)) (f : Forest α)
    (hl : ∀ x ∈ l, x.1 ≠ []) (hi : k.idx = f.length) (hg : f.get (.seq k.idx) = none) :
    insKAll (.node .list f) (((k2 :: p, v) :: l).map fun x => (k :: x.1, x.2)) =
      (insKAll (container k2) ((k2 :: p, v) :: l)).map fun c' => .node .list (f.put (.seq k.idx) c') := by
  have he : ∀ w : Tree α, extendList f k.idx w = some (f.append (.cons (.seq k.idx) w .nil)) := by
    intro w
    simp only [extendList]
    rw [if_neg (by omega), if_pos hi]
  simp only [List.map_cons, insKAll_cons]
  rw [insertKey_list hk, he, Option.bind_some, Forest.get_append_self f _ _ hg, Option.bind_some]
  cases hi' : insertKey (container k2) (k2 :: p) v with
  | none => simp
  | some c' =>
    simp only [Option.bind_some]
    have hp : ∀ w : Tree α, (f.append (.cons (.seq k.idx) w .nil)).put (.seq k.idx) c' = f.put (.seq k.idx) c' := by
      intro w
      rw [← Forest.put_new f _ w hg, Forest.put_put]
    rw [hp]
    rw [insKAll_list k hk l (f.put (.seq k.idx) c') c' hl
      (by rw [Forest.put_new f _ _ hg, Forest.length_append]; simp only [Forest.length]; omega) (Forest.put_get_self _ _ _)]
    simp [Forest.put_put]

theorem seqFrom_cls {c : Nat → Key} {n : Nat} (hc : ∀ i, (c i).cls = n) : ∀ (i : Nat) (l : List Key), SeqFrom c i l → ∀ k ∈ l, k.cls = n
  | _, [], _, k, hk => by simp at hk
  | i, x :: l, h, k, hk => by
    rcases List.mem_cons.mp hk with rfl | hk
    · rw [h.1]; exact hc i
    · exact seqFrom_cls hc (i + 1) l h.2 k hk

theorem seqFrom_mem {c : Nat → Key} : ∀ (i : Nat) (l : List Key), SeqFrom c i l → ∀ k ∈ l, ∃ j, i ≤ j ∧ j < i + l.length ∧ k = c j
  | _, [], _, k, hk => by simp at hk
  | i, x :: l, h, k, hk => by
    rcases List.mem_cons.mp hk with rfl | hk
    · exact ⟨i, Nat.le_refl _, by simp, h.1⟩
    · obtain ⟨j, h1, h2, h3⟩ := seqFrom_mem (i + 1) l h.2 k hk
      exact ⟨j, by omega, by simp only [List.length_cons]; omega, h3⟩

theorem seqFrom_append {c : Nat → Key} : ∀ (i : Nat) (l : List Key), SeqFrom c i l → SeqFrom c i (l ++ [c (i + l.length)])
  | i, [], _ => by simp [SeqFrom]
  | i, x :: l, h => by
    refine ⟨h.1, ?_⟩
    have := seqFrom_append (i + 1) l h.2
    have e : i + (x :: l).length = i + 1 + l.length := by simp only [List.length_cons]; omega
    rw [e]; exact this

theorem KeysOk.split {l : List Key} (h : KeysOk l) :
    ((∀ k ∈ l, k.isDict = true) ∧ (l.map Key.str).Nodup) ∨
    (∃ c : Nat → Key, (∀ i, (c i).isDict = false ∧ (c i).idx = i ∧ (c i).name = .int i) ∧ SeqFrom c 0 l) := by
  rcases h with ⟨h1, h2⟩ | ⟨h1, h2⟩ | h | h
  · left
    refine ⟨fun k hk => ?_, h2⟩
    have := h1 k hk
    cases k <;> simp_all [Key.cls, Key.isDict]
  · left
    refine ⟨fun k hk => ?_, h2⟩
    have := h1 k hk
    cases k <;> simp_all [Key.cls, Key.isDict]
  · right; exact ⟨Key.seq, fun i => ⟨rfl, rfl, rfl⟩, h⟩
  · right; exact ⟨Key.flat, fun i => ⟨rfl, rfl, rfl⟩, h⟩

theorem KeysOk.cls {l : List Key} (h : KeysOk l) : ∃ n, ∀ k ∈ l, k.cls = n := by
  rcases h with ⟨h1, h2⟩ | ⟨h1, h2⟩ | h | h
  · exact ⟨1, h1⟩
  · exact ⟨2, h1⟩
  · exact ⟨0, seqFrom_cls (c := Key.seq) (fun _ => rfl) 0 l h⟩
  · exact ⟨3, seqFrom_cls (c := Key.flat) (fun _ => rfl) 0 l h⟩

theorem plain_of_emptyOrLeaf {α} {t : Tree α} (h : t.emptyOrLeaf = true) : t.plain = t := by
  cases t with
  | leaf a => rfl
  | node k f =>
    simp only [Tree.emptyOrLeaf, Forest.isEmpty_iff] at h
    subst h
    rfl

theorem flat_first {α} (kd : Kind) (k : Key) (t : Tree α) (r : Forest α) :
    ∃ p v l, (Tree.node kd (.cons k t r)).flat true = (k :: p, v) :: l ∧ ∀ x ∈ l, x.1 ≠ [] := by
  have h0 := flat_nonempty_paths (keep := true) (k := kd) (f := Forest.cons k t r) (by simp [Forest.isEmpty])
  have h1 := flat_keep_ne_nil t
  simp only [Tree.flat, Forest.isEmpty, Bool.and_false, Bool.false_eq_true, if_false, Forest.flat] at h0 ⊢
  obtain ⟨x, l, e⟩ := List.exists_cons_of_ne_nil h1
  rw [e] at h0 ⊢
  refine ⟨x.1, x.2, _, rfl, ?_⟩
  intro y hy
  exact h0 y (by simp only [List.map_cons, List.cons_append, List.mem_cons]; exact .inr hy)

/-- A child that is rebuilt from its flattening is put under its key. -/
def Rebuilds {α} (t : Tree α) : Prop :=
  t.emptyOrLeaf = true ∨ ∃ k2 p v l, t.flat true = (k2 :: p, v) :: l ∧ (∀ x ∈ l, x.1 ≠ []) ∧
    insKAll (container k2) (t.flat true) = some t.plain

theorem put_child {α} {t : Tree α} (h : Rebuilds t) (k : Key) (hk : k.isDict = true) (g : Forest α)
    (hg : g.get (.dict (.str k.str)) = none) :
    insKAll (.node .dict g) ((t.flat true).map fun x => (k :: x.1, x.2)) = some (.node .dict (g.put (.dict (.str k.str)) t.plain)) := by
  rcases h with h | ⟨k2, p, v, l, e, hl, hb⟩
  · rw [flat_of_emptyOrLeaf h, plain_of_emptyOrLeaf h]
    simp [insKAll_cons, insKAll_nil, insertKey, hk]
  · rw [e, insKAll_under_new k k2 hk p v l g hl hg, ← e, hb]
    rfl

theorem put_elem {α} {t : Tree α} (h : Rebuilds t) (k : Key) (hk : k.isDict = false) (g : Forest α)
    (hi : k.idx = g.length) (hg : g.get (.seq k.idx) = none) :
    insKAll (.node .list g) ((t.flat true).map fun x => (k :: x.1, x.2)) = some (.node .list (g.put (.seq k.idx) t.plain)) := by
  rcases h with h | ⟨k2, p, v, l, e, hl, hb⟩
  · rw [flat_of_emptyOrLeaf h, plain_of_emptyOrLeaf h]
    simp [insKAll_cons, insKAll_nil, insertKey, hk, extendList, hi]
    rw [← hi, Forest.put_new g _ t hg]
  · rw [e, insKAll_list_new k k2 hk p v l g hl hi hg, ← e, hb]
    rfl

mutual
theorem rebuild_tree {α} : ∀ (t : Tree α), t.KeysOk → Rebuilds t
  | .leaf a, _ => .inl rfl
  | .node kd .nil, _ => .inl rfl
  | .node kd (.cons k t r), h => by
    right
    obtain ⟨p, v, l, e, hl⟩ := flat_first kd k t r
    refine ⟨k, p, v, l, e, hl, ?_⟩
    have hf : (Tree.node kd (.cons k t r)).flat true = (Forest.cons k t r).flat true := by
      simp [Tree.flat, Forest.isEmpty]
    rw [hf]
    rcases h.1.split with ⟨h1, h2⟩ | ⟨c, h1, h2⟩
    · have hk := h1 k (by simp [Forest.keys])
      have := rebuild_dict (.cons k t r) .nil h1 h2 h.2 (by simp [Forest.get])
      simp only [container, hk, if_true, emptyDict, Tree.plain]
      rw [this]
      rfl
    · have hk : k = c 0 := h2.1
      have := rebuild_list c h1 (.cons k t r) .nil 0 h2 h.2 trivial rfl
      simp only [container, hk, (h1 0).1, Bool.false_eq_true, if_false, emptyList, Tree.plain]
      rw [hk] at this
      rw [this]
      rfl
theorem rebuild_dict {α} : ∀ (f g : Forest α), (∀ k ∈ f.keys, k.isDict = true) → (f.keys.map Key.str).Nodup → f.KeysOk →
    (∀ k ∈ f.keys, g.get (.dict (.str k.str)) = none) →
    insKAll (.node .dict g) (f.flat true) = some (.node .dict (g.append f.plainDict))
  | .nil, g, _, _, _, _ => by simp [Forest.flat, insKAll_nil, Forest.plainDict, Forest.append_nil]
  | .cons k t r, g, hk, hn, ho, hg => by
    simp only [Forest.keys, List.map_cons, List.nodup_cons] at hn
    have hgk := hg k (by simp [Forest.keys])
    simp only [Forest.flat, insKAll_append]
    rw [put_child (rebuild_tree t ho.1) k (hk k (by simp [Forest.keys])) g hgk, Option.bind_some,
      rebuild_dict r _ (fun x hx => hk x (by simp [Forest.keys, hx])) hn.2 ho.2, Forest.put_new g _ _ hgk, Forest.append_assoc]
    · rfl
    · intro x hx
      rw [Forest.put_get_ne]
      · exact hg x (by simp [Forest.keys, hx])
      · simp only [ne_eq, Key.dict.injEq, Atom.str.injEq]
        intro e
        exact hn.1 (by rw [← e]; exact List.mem_map_of_mem hx)
theorem rebuild_list {α} (c : Nat → Key) (hc : ∀ i, (c i).isDict = false ∧ (c i).idx = i ∧ (c i).name = .int i) :
    ∀ (f g : Forest α) (i : Nat), SeqFrom c i f.keys → f.KeysOk → SeqFrom Key.seq 0 g.keys → g.length = i →
    insKAll (.node .list g) (f.flat true) = some (.node .list (g.append (f.plainList i)))
  | .nil, g, i, _, _, _, _ => by simp [Forest.flat, insKAll_nil, Forest.plainList, Forest.append_nil]
  | .cons k t r, g, i, hs, ho, hg, hi => by
    have hk : k = c i := hs.1
    subst hk
    have hgk : g.get (.seq i) = none := by
      rw [Forest.get_none]
      intro hm
      obtain ⟨j, -, h2, h3⟩ := seqFrom_mem 0 _ hg _ hm
      cases h3
      rw [← Forest.length_keys] at h2
      omega
    have hidx := (hc i).2.1
    simp only [Forest.flat, insKAll_append]
    rw [put_elem (rebuild_tree t ho.1) (c i) (hc i).1 g (by rw [hidx, hi]) (by rw [hidx]; exact hgk), Option.bind_some, hidx,
      Forest.put_new g _ _ hgk, rebuild_list c hc r _ (i + 1) hs.2 ho.2, Forest.append_assoc]
    · rfl
    · rw [Forest.keys_append]
      have := seqFrom_append 0 g.keys hg
      rw [Nat.zero_add, ← Forest.length_keys, hi] at this
      exact this
    · rw [Forest.length_append]; simp [Forest.length, hi]
end

/-- C41 (serialization): every tree serializes, with empty nodes kept, to its plain form: dictionaries and records as
dictionaries with string keys, sequences as lists, leaves and empty nodes unchanged. -/
theorem C41_serialize {α} (t : Tree α) (h : t.KeysOk) : serialize true t = some t.plain := by
  simp only [serialize]
  rcases rebuild_tree t h with he | ⟨k2, p, v, l, e, hl, hb⟩
  · rw [flat_of_emptyOrLeaf he, plain_of_emptyOrLeaf he]
    rfl
  · rw [e] at hb ⊢
    simp only [fromKeypaths]
    rw [if_pos]
    · exact hb
    · rw [List.all_eq_true]
      intro x hx
      rw [← e] at hx
      cases t with
      | leaf a => simp [Tree.flat] at hx; subst hx; rfl
      | node kd f =>
        have hf : (keep : Bool) → keep = true → (keep && f.isEmpty) = false := by
          intro keep hk
          cases f with
          | nil => simp [Tree.flat, Forest.isEmpty] at e
          | cons _ _ _ => simp [Forest.isEmpty]
        simp only [Tree.flat, hf true rfl, Bool.false_eq_true, if_false] at hx e
        obtain ⟨k, q, -, h1, h2, -⟩ := Forest.flat_head hx
        have hk2 : k2 ∈ f.keys := by
          obtain ⟨k', q', -, h1', h2', -⟩ := Forest.flat_head (f := f) (keep := true) (x := (k2 :: p, v)) (by rw [e]; simp)
          cases h1'; exact h2'
        obtain ⟨n, hn⟩ := h.1.cls
        rw [h1]
        simp [hn k h2, hn k2 hk2]

mutual
theorem flat_full {α} : ∀ (t : Tree α), t.Full → t.flat false = t.flat true
  | .leaf a, _ => rfl
  | .node k f, h => by
    have : f.isEmpty = false := by
      cases f with
      | nil => exact absurd rfl h.1
      | cons _ _ _ => rfl
    simp [Tree.flat, this, flatF_full f h.2]
theorem flatF_full {α} : ∀ (f : Forest α), f.Full → f.flat false = f.flat true
  | .nil, _ => rfl
  | .cons k t r, h => by simp [Forest.flat, flat_full t h.1, flatF_full r h.2]
end

/-- C41 (serialization without empty nodes): a tree that has none serializes to its plain form. -/
theorem C41_serialize_full {α} (t : Tree α) (h : t.KeysOk) (hf : t.Full) : serialize false t = some t.plain := by
  have := C41_serialize t h
  simp only [serialize] at this ⊢
  rw [flat_full t hf]
  exact this

/-- C41 (finding: an empty first element): without kept empty nodes, a list whose first element has no leaf and whose
second has one cannot be serialized at all: an assertion fails. -/
theorem C41_empty_first_element_fails {α} (a b : Tree α) (ha : a.hasLeaf = false) (hb : b.hasLeaf = true) :
    serialize false (listNode [a, b]) = none := by
  simp only [serialize, listNode, enumFrom, Tree.flat, Forest.flat, flat_false_nil a ha, Bool.false_and, Bool.false_eq_true, if_false,
    List.map_nil, List.nil_append, List.append_nil, Nat.zero_add]
  have hne : b.flat false ≠ [] := by
    rw [flat_prune b hb]; exact flat_keep_ne_nil _
  obtain ⟨x, l, e⟩ := List.exists_cons_of_ne_nil hne
  rw [e]
  simp only [List.map_cons, fromKeypaths]
  split
  · simp only [List.foldlM_cons, container, Key.isDict, Bool.false_eq_true, if_false, emptyList]
    have : insertKey (Tree.node .list .nil) (.seq 1 :: x.1) x.2 = none := by
      cases hx : x.1 with
      | nil => simp [insertKey, Key.isDict, extendList, Key.idx, Forest.length]
      | cons k p => simp [insertKey, Key.isDict, extendList, Key.idx, Forest.length]
    rw [this]
    rfl
  · rfl

/-- C41 (finding: keys that differ only in type): the integer `i` and its decimal string become one key, and the
first value is silently lost. -/
theorem C41_int_and_str_keys_fail {α} (i : Nat) (a b : α) :
    serialize true (.node .dict (.cons (.dict (.int i)) (.leaf a) (.cons (.dict (.str (Atom.int i).toStr)) (.leaf b) .nil)))
      = some (dictNode [((Atom.int i).toStr, .leaf b)]) := by
  have h : ∀ n : Name, (Forest.put (.cons (.dict (.str n)) (Tree.leaf a) .nil) (.dict (.str n)) (.leaf b)) = .cons (.dict (.str n)) (.leaf b) .nil := by
    intro n; simp [Forest.put]
  have := h (Atom.int i).toStr
  show some (Tree.node Kind.dict (Forest.put (.cons (.dict (.str (Atom.int i).toStr)) (Tree.leaf a) .nil) (.dict (.str (Atom.int i).toStr)) (.leaf b))) = _
  rw [this]
  rfl

/-! #### Deserialization -/

theorem get_plainDict {α} : ∀ (f : Forest α), (f.keys.map Key.str).Nodup → ∀ k c, (k, c) ∈ f.toList →
    f.plainDict.get (.dict (.str k.str)) = some c.plain
  | .nil, _, k, c, h => by simp [Forest.toList] at h
  | .cons k' t r, hn, k, c, h => by
    simp only [Forest.keys, List.map_cons, List.nodup_cons] at hn
    simp only [Forest.toList, List.mem_cons] at h
    rcases h with h | h
    · cases h; simp [Forest.plainDict, Forest.get]
    · have hm : k ∈ r.keys := by
        clear hn
        induction r using Forest.rec (motive_1 := fun _ => True) with
        | nil => simp [Forest.toList] at h
        | cons k'' t'' r'' _ ih =>
          simp only [Forest.toList, List.mem_cons] at h
          rcases h with h | h
          · cases h; simp [Forest.keys]
          · simp [Forest.keys, ih h]
        | leaf => trivial
        | node => trivial
      have hne : k'.str ≠ k.str := by
        intro e
        exact hn.1 (by rw [e]; exact List.mem_map_of_mem hm)
      simp [Forest.plainDict, Forest.get, hne, get_plainDict r hn.2 k c h]

theorem nth_plainList {α} (ck : Nat → Key) : ∀ (f : Forest α) (i : Nat), SeqFrom ck i f.keys → ∀ (k : Key) (c : Tree α), (k, c) ∈ f.toList →
    ∃ j, k = ck (i + j) ∧ ∀ s, (f.plainList s).nth j = some c.plain
  | .nil, i, _, k, c, h => by simp [Forest.toList] at h
  | .cons k' t r, i, hs, k, c, h => by
    simp only [Forest.toList, List.mem_cons] at h
    rcases h with h | h
    · cases h
      exact ⟨0, hs.1, fun s => rfl⟩
    · obtain ⟨j, h1, h2⟩ := nth_plainList ck r (i + 1) hs.2 k c h
      refine ⟨j + 1, ?_, fun s => ?_⟩
      · rw [h1]; congr 1; omega
      · simp only [Forest.plainList, Forest.nth]
        exact h2 _

theorem lookUp_plain {α} (kd : Kind) (f : Forest α) (h : KeysOk f.keys) (k : Key) (c : Tree α) (hm : (k, c) ∈ f.toList) :
    lookUp (Tree.node kd f).plain k = some c.plain := by
  cases f with
  | nil => simp [Forest.toList] at hm
  | cons k0 t r =>
    have hmk : k ∈ (Forest.cons k0 t r).keys := by
      have : ∀ f : Forest α, (k, c) ∈ f.toList → k ∈ f.keys := by
        intro f
        induction f using Forest.rec (motive_1 := fun _ => True) with
        | nil => intro h; simp [Forest.toList] at h
        | cons k'' t'' r'' _ ih =>
          intro h
          simp only [Forest.toList, List.mem_cons] at h
          rcases h with h | h
          · cases h; simp [Forest.keys]
          · simp [Forest.keys, ih h]
        | leaf => trivial
        | node => trivial
      exact this _ hm
    rcases h.split with ⟨h1, h2⟩ | ⟨ck, h1, h2⟩
    · have hk0 := h1 k0 (by simp [Forest.keys])
      have hk := h1 k hmk
      have hn : k.name = .str k.str := by
        cases k <;> simp_all [Key.isDict, Key.name, Key.str, Atom.toStr]
      have e : (Tree.node kd (Forest.cons k0 t r)).plain = .node .dict (Forest.cons k0 t r).plainDict := by
        simp [Tree.plain, hk0, Forest.plainDict]
      rw [e]
      simp only [lookUp, hn, get_plainDict _ h2 k c hm]
    · have hk0 : k0.isDict = false := by rw [h2.1]; exact (h1 0).1
      have e : (Tree.node kd (Forest.cons k0 t r)).plain = .node .list ((Forest.cons k0 t r).plainList 0) := by
        simp [Tree.plain, hk0, Forest.plainList]
      obtain ⟨j, h3, h4⟩ := nth_plainList ck _ 0 h2 k c hm
      rw [Nat.zero_add] at h3
      rw [e, h3]
      simp only [lookUp, (h1 j).2.2]
      exact h4 0

mutual
theorem walk_plain {α} (keep : Bool) : ∀ (t : Tree α), t.KeysOk → ∀ x ∈ t.flat keep, walk t.plain x.1 = some x.2
  | .leaf a, _, x, hx => by simp [Tree.flat] at hx; subst hx; rfl
  | .node kd f, h, x, hx => by
    simp only [Tree.flat] at hx
    split at hx
    · next hc =>
      simp only [List.mem_singleton] at hx
      subst hx
      simp only [Bool.and_eq_true] at hc
      rw [plain_of_emptyOrLeaf (by simpa [Tree.emptyOrLeaf] using hc.2)]
      rfl
    · obtain ⟨k, p, c, h1, h2, h3⟩ := walkF_plain keep f h.2 x hx
      rw [h1]
      simp only [walk, lookUp_plain kd f h.1 k c h2, Option.bind_some, h3]
theorem walkF_plain {α} (keep : Bool) : ∀ (f : Forest α), f.KeysOk → ∀ x ∈ f.flat keep,
    ∃ k p c, x.1 = k :: p ∧ (k, c) ∈ f.toList ∧ walk c.plain p = some x.2
  | .nil, _, x, hx => by simp [Forest.flat] at hx
  | .cons k t r, h, x, hx => by
    simp only [Forest.flat, List.mem_append, List.mem_map] at hx
    rcases hx with ⟨y, hy, rfl⟩ | hx
    · exact ⟨k, y.1, t, rfl, by simp [Forest.toList], walk_plain keep t h.1 y hy⟩
    · obtain ⟨k', p, c, h1, h2, h3⟩ := walkF_plain keep r h.2 x hx
      exact ⟨k', p, c, h1, by simp [Forest.toList, h2], h3⟩
end

/-- C41 (round trip): deserializing the serialized form of any tree on a target of the same structure gives the tree
back, with the original containers, whether or not empty nodes are visited. -/
theorem C41_round_trip {α} (keep : Bool) (t : Tree α) (h : t.KeysOk) :
    (serialize true t).bind (fun s => deserialize keep s t) = some t := by
  rw [C41_serialize t h]
  simp only [Option.bind_some, deserialize]
  apply Tree.mapPath_id
  intro x hx
  rw [List.nil_append]
  exact walk_plain keep t h x hx

/-- C41 (round trip without empty nodes). -/
theorem C41_round_trip_full {α} (t : Tree α) (h : t.KeysOk) (hf : t.Full) :
    (serialize false t).bind (fun s => deserialize false s t) = some t := by
  rw [C41_serialize_full t h hf, ← C41_serialize t h]
  exact C41_round_trip false t h

mutual
/-- The form of a tree in which every non-empty container is a dictionary with string keys. -/
def Tree.dicts {α} : Tree α → Tree α
  | .leaf a => .leaf a
  | .node k f => if f.isEmpty then .node k .nil else .node .dict f.dicts
def Forest.dicts {α} : Forest α → Forest α
  | .nil => .nil
  | .cons k t r => .cons (.dict (.str k.str)) t.dicts r.dicts
end

theorem get_dicts_int {α} (i : Int) : ∀ (f : Forest α), f.dicts.get (.dict (.int i)) = none
  | .nil => rfl
  | .cons k t r => by simp [Forest.dicts, Forest.get, get_dicts_int i r]

theorem get_dicts {α} (s : Name) : ∀ (f : Forest α), (f.keys.map Key.str).Nodup → ∀ k c, f.get k = some c → k.str = s →
    f.dicts.get (.dict (.str s)) = some c.dicts
  | .nil, _, k, c, h, _ => by simp [Forest.get] at h
  | .cons k' t r, hn, k, c, h, hs => by
    simp only [Forest.keys, List.map_cons, List.nodup_cons] at hn
    simp only [Forest.get] at h
    split at h
    · next e => cases h; subst e; simp [Forest.dicts, Forest.get, hs]
    · have hne : k'.str ≠ s := by
        rintro e
        exact hn.1 (by rw [e, ← hs]; exact List.mem_map_of_mem (Forest.get_mem h))
      simp [Forest.dicts, Forest.get, hne, get_dicts s r hn.2 k c h hs]

theorem walk_dicts {α} : ∀ (p : List Key) (t v : Tree α), t.Distinct → t.at_ p = some v → walk t.dicts p = some v.dicts
  | [], t, v, _, h => by cases h; rfl
  | k :: p, t, v, hd, h => by
    cases t with
    | leaf a => cases h
    | node kd f =>
      simp only [Tree.at_, Option.bind_eq_some_iff] at h
      obtain ⟨c, h1, h2⟩ := h
      have hc : c.Distinct := by
        have : ∀ (f : Forest α), f.Distinct → f.get k = some c → c.Distinct := by
          intro f
          induction f using Forest.rec (motive_1 := fun _ => True) with
          | nil => intro _ h; simp [Forest.get] at h
          | cons k'' t'' r'' _ ih =>
            intro hd h
            simp only [Forest.get] at h
            split at h
            · cases h; exact hd.1
            · exact ih hd.2 h
          | leaf => trivial
          | node => trivial
        exact this f hd.2 h1
      have hf : f.isEmpty = false := by
        cases f with
        | nil => simp [Forest.get] at h1
        | cons _ _ _ => rfl
      have hl : lookUp (Tree.node kd f).dicts k = some c.dicts := by
        simp only [Tree.dicts, hf, Bool.false_eq_true, if_false, lookUp]
        have hg := get_dicts k.str f hd.1 k c h1 rfl
        rw [hg]
        cases hn : k.name with
        | str n =>
          have : k.str = n := by simp [Key.str, hn, Atom.toStr]
          rw [this] at hg
          rw [hg]
        | int i => rw [get_dicts_int]
      simp only [walk, hl, Option.bind_some]
      exact walk_dicts p c v hc h2

/-- C41 (a serialized form made of dictionaries): a serialized form in which every container is a dictionary with
string keys, sequences under the decimal strings of their positions, also deserializes to the tree. -/
theorem C41_dicts_round_trip {α} (keep : Bool) (t : Tree α) (h : t.Distinct) : deserialize keep t.dicts t = some t := by
  simp only [deserialize]
  apply Tree.mapPath_id
  intro x hx
  rw [List.nil_append]
  obtain ⟨h1, h2, -⟩ := (t.flat_spec keep h x.1 x.2).mp hx
  rw [walk_dicts x.1 t x.2 h h1]
  congr 1
  cases hx2 : x.2 with
  | leaf a => rfl
  | node k f =>
    rw [hx2] at h2
    simp only [Tree.emptyOrLeaf, Forest.isEmpty_iff] at h2
    subst h2
    rfl

/-! ### C42: parameter names -/

/-- C42 (parameter names are unique): if sibling keys have distinct names and no name contains a dot, no two leaves
(or kept empty nodes) of a tree have the same parameter name. -/
theorem C42_param_names_unique {α} (keep : Bool) (t : Tree α) (hd : t.Distinct) (hc : t.AllNames fun n => '.' ∉ n) :
    (paramNames keep t).Nodup := by
  simp only [paramNames]
  by_cases h0 : ∃ x ∈ t.flat keep, x.1 = []
  · -- the tree is a single leaf or a kept empty node
    obtain ⟨x, hx, e⟩ := h0
    have : t.flat keep = [x] := by
      cases t with
      | leaf a => simp [Tree.flat] at hx ⊢; exact hx.symm
      | node k f =>
        cases hb : keep && f.isEmpty with
        | true => simp [Tree.flat, hb] at hx ⊢; exact hx.symm
        | false => exact absurd e (flat_nonempty_paths hb x hx)
    rw [this]; simp
  · have h0' : ∀ x ∈ t.flat keep, x.1 ≠ [] := fun x hx e => h0 ⟨x, hx, e⟩
    have h1 := join_nodup '.' [] ((t.flat keep).map fun x => (strPath x.1, x.2))
      (by rw [List.map_map]; exact t.flat_nodup keep hd) ?_ ?_
    · simpa [List.map_map, Function.comp_def, paramName] using h1
    · intro x hx
      obtain ⟨y, hy, rfl⟩ := List.mem_map.mp hx
      simpa [strPath] using h0' y hy
    · intro x hx
      obtain ⟨y, hy, rfl⟩ := List.mem_map.mp hx
      exact allNames_path keep t hc y hy

/-- C42 (a parameter name determines the path): under the same conditions, splitting a parameter name at the dots
gives the key names along the path, for every leaf of a tree that is not itself a leaf. -/
theorem C42_param_name_splits {α} (keep : Bool) (t : Tree α) (hc : t.AllNames fun n => '.' ∉ n) (x : List Key × Tree α)
    (hx : x ∈ t.flat keep) (h0 : x.1 ≠ []) : split ['.'] (paramName x.1) = some (strPath x.1) :=
  split_join '.' [] (strPath x.1) (by simpa [strPath] using h0) (allNames_path keep t hc x hx)

/-- C42 (finding: a dot in a key): for all keys `a` and `b`, the value under `a` then `b` and the value under the key
`a.b` have the same parameter name. -/
theorem C42_dot_collision_fails {α} (a b : Name) (x y : α) :
    paramNames true (dictNode [(a, dictNode [(b, .leaf x)]), (a ++ '.' :: b, .leaf y)]) = [a ++ '.' :: b, a ++ '.' :: b] := by
  have h1 : paramNames true (dictNode [(a, dictNode [(b, Tree.leaf x)]), (a ++ '.' :: b, .leaf y)])
      = [a ++ ['.'] ++ b, a ++ '.' :: b] := rfl
  rw [h1]
  simp

/-! Non-vacuity of C41 and C42. -/

/-- `{'m': (1, [2], Point(x=3, y=()))}` -/
def exTree2 : Tree Nat :=
  dictNode [(['m'], .node .tuple (enumFrom 0 [.leaf 1, listNode [.leaf 2],
    .node (.named ['P']) (.cons (.attr ['x']) (.leaf 3) (.cons (.attr ['y']) (.node .tuple .nil) .nil))]))]

example : exTree2.KeysOk := by
  simp [exTree2, dictNode, listNode, enumFrom, Forest.ofList, Tree.KeysOk, Forest.KeysOk, Trees.KeysOk, Forest.keys, Key.cls, SeqFrom, Key.str, Key.name, Atom.toStr]
example : serialize true exTree2 =
    some (dictNode [(['m'], listNode [.leaf 1, listNode [.leaf 2], dictNode [(['x'], .leaf 3), (['y'], .node .tuple .nil)]])]) := by decide
example : deserialize true exTree2.plain exTree2 = some exTree2 := by decide
example : paramNames true exTree = [['a', '.', 'b'], ['a', '.', 'c'], ['d']] := by decide
example : (serialize false (listNode [emptyDict, .leaf 1])) = none := by decide
/-- Trailing elements without leaves are dropped. -/
example : serialize false (listNode [.leaf 1, emptyDict]) = some (listNode [.leaf 1]) := by decide

end Verif.Trees
