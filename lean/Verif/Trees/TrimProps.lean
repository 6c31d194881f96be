import Verif.Trees.Trim
import Verif.Trees.PartsOfProps

/-!
# Property C44: `tree_trim` keeps exactly the template
-/

namespace Verif.Trees

open Verif
open scoped List

/-! ### Specification -/

/-- The keys JAX gives the children of a node of a kind; dictionaries have string keys. -/
def KeysWf (kd : Kind) (l : List Key) : Prop := match kd with
  | .none => l = []
  | .dict => ∀ k ∈ l, ∃ n, k = .dict (.str n)
  | .list => SeqFrom Key.seq 0 l
  | .tuple => SeqFrom Key.seq 0 l
  | .named _ => ∀ k ∈ l, ∃ n, k = .attr n
  | .custom _ => True

mutual
/-- Every node has keys of its kind, with pairwise different names. -/
def Tree.Wf {α} : Tree α → Prop
  | .leaf _ => True
  | .node kd f => KeysWf kd f.keys ∧ (f.keys.map Key.str).Nodup ∧ f.Wf
def Forest.Wf {α} : Forest α → Prop
  | .nil => True
  | .cons _ t r => t.Wf ∧ r.Wf
end

mutual
/-- There are no named tuples. -/
def Tree.NoNamed {α} : Tree α → Prop
  | .leaf _ => True
  | .node kd f => (∀ n, kd ≠ .named n) ∧ f.NoNamed
def Forest.NoNamed {α} : Forest α → Prop
  | .nil => True
  | .cons _ t r => t.NoNamed ∧ r.NoNamed
end

/-- Which child of a node of the tree corresponds to a child of a node of the template: sequences by position, others
by name. -/
def Link (kd kd' : Kind) (fk gk : List Key) (k l : Key) : Prop :=
  if kd.isSeq && kd'.isSeq then ∃ i : Nat, fk[i]? = some k ∧ gk[i]? = some l
  else k ∈ fk ∧ l ∈ gk ∧ k.str = l.str

/-- Corresponding paths of the template and the tree. -/
inductive Corr {α β} : Tree β → Tree α → List Key → List Key → Prop
  | nil (t : Tree β) (s : Tree α) : Corr t s [] []
  | cons {kd kd' : Kind} {f : Forest β} {g : Forest α} {k l : Key} {t : Tree β} {c : Tree α} {ks ls : List Key} :
    f.get k = some t → g.get l = some c → Link kd kd' f.keys g.keys k l → Corr t c ks ls →
    Corr (.node kd f) (.node kd' g) (k :: ks) (l :: ls)

/-- The path is below a removed node. -/
def Below {α} (d : List (List Key × Tree α)) (ls : List Key) : Prop := ∃ x ∈ d, x.1 <+: ls

/-! ### Lemmas -/

theorem Forest.get_wf {α} : ∀ {f : Forest α} {k c}, f.Wf → f.get k = some c → c.Wf
  | .nil, _, _, _, h => by simp [Forest.get] at h
  | .cons k' t r, k, c, ho, h => by
    simp only [Forest.get] at h
    split at h
    · cases h; exact ho.1
    · exact Forest.get_wf ho.2 h

mutual
theorem wf_distinct {α} : ∀ {t : Tree α}, t.Wf → t.Distinct
  | .leaf _, _ => trivial
  | .node _ _, h => ⟨h.2.1, wfF_distinct h.2.2⟩
theorem wfF_distinct {α} : ∀ {f : Forest α}, f.Wf → f.Distinct
  | .nil, _ => trivial
  | .cons _ _ _, h => ⟨wf_distinct h.1, wfF_distinct h.2⟩
end

theorem keys_toList {α} : ∀ (f : Forest α), f.toList.map (·.1) = f.keys
  | .nil => rfl
  | .cons k t r => by simp [Forest.toList, Forest.keys, keys_toList r]

theorem get_toList {α} : ∀ (f : Forest α) (k : Key), f.get k = Assoc.get f.toList k
  | .nil, k => rfl
  | .cons k' t r, k => by
    simp only [Forest.get, Forest.toList, Assoc.get]
    rw [get_toList r k]

theorem mem_toList {α} {f : Forest α} (hn : f.keys.Nodup) {k : Key} {c : Tree α} : (k, c) ∈ f.toList ↔ f.get k = some c := by
  rw [get_toList]
  constructor
  · intro h
    exact Assoc.get_of_mem _ (by simpa [Assoc.keys, keys_toList] using hn) _ _ h
  · exact Assoc.mem_of_get _ _ _

theorem entries_eq {α} (key : Key → Atom) (g : Forest α) (hn : (g.keys.map key).Nodup) :
    g.entries key = g.toList.map fun x => (key x.1, x) := by
  simp only [Forest.entries]
  have : ∀ (l : List (Key × Tree α)) (d : List (Atom × (Key × Tree α))), ((Assoc.keys d) ++ l.map (fun x => key x.1)).Nodup →
      l.foldl (fun d x => Assoc.put d (key x.1) x) d = d ++ l.map fun x => (key x.1, x) := by
    intro l
    induction l with
    | nil => intro d _; simp
    | cons x l ih =>
      intro d hd
      simp only [List.foldl_cons, List.map_cons]
      have hx : key x.1 ∉ Assoc.keys d := by
        intro h
        exact (List.nodup_append.mp hd).2.2 _ h (key x.1) (by simp) rfl
      have hput : ∀ (d : List (Atom × (Key × Tree α))), key x.1 ∉ Assoc.keys d → Assoc.put d (key x.1) x = d ++ [(key x.1, x)] := by
        intro d
        induction d with
        | nil => intro _; rfl
        | cons y d ihd =>
          intro h
          simp only [Assoc.keys, List.map_cons, List.mem_cons, not_or] at h
          obtain ⟨y1, y2⟩ := y
          simp only [Assoc.put]
          rw [if_neg (fun e => h.1 e.symm)]
          simp only [List.cons_append, List.cons.injEq, true_and]
          exact ihd h.2
      rw [hput d hx, ih]
      · simp
      · simpa [Assoc.keys, List.append_assoc] using hd
  rw [this _ _ ?_]
  · rfl
  · simpa [Assoc.keys, ← keys_toList, List.map_map, Function.comp_def] using hn

theorem mem_entries {α} (key : Key → Atom) (g : Forest α) (hn : (g.keys.map key).Nodup) (a : Atom) (l : Key) (c : Tree α) :
    (a, (l, c)) ∈ g.entries key ↔ g.get l = some c ∧ key l = a := by
  rw [entries_eq key g hn, ← mem_toList (nodup_of_map hn), List.mem_map]
  constructor
  · rintro ⟨x, hx, e⟩
    simp only [Prod.mk.injEq] at e
    obtain ⟨e1, rfl⟩ := e
    exact ⟨hx, e1⟩
  · rintro ⟨h1, rfl⟩
    exact ⟨(l, c), h1, rfl⟩

theorem get_entries {α} (key : Key → Atom) (g : Forest α) (hn : (g.keys.map key).Nodup) (a : Atom) (l : Key) (c : Tree α) :
    Assoc.get (g.entries key) a = some (l, c) ↔ g.get l = some c ∧ key l = a := by
  rw [← mem_entries key g hn]
  constructor
  · exact Assoc.mem_of_get _ _ _
  · apply Assoc.get_of_mem
    rw [entries_eq key g hn]
    simpa [Assoc.keys, ← keys_toList, List.map_map, Function.comp_def] using hn

theorem map_fst_zip_sublist {β γ} : ∀ (a : List β) (b : List γ), (a.zip b).map (·.1) <+ a
  | [], _ => by simp
  | _ :: _, [] => by simp
  | x :: a, y :: b => by
    simp only [List.zip_cons_cons, List.map_cons]
    exact (map_fst_zip_sublist a b).cons_cons x

theorem get_zipped {α β} (f : Forest β) (g : Forest α) (hf : f.keys.Nodup) (hg : g.keys.Nodup) (k l : Key) (c : Tree α) :
    Assoc.get (zipped f g) k = some (l, c) ↔ g.get l = some c ∧ ∃ i : Nat, f.keys[i]? = some k ∧ g.keys[i]? = some l := by
  have h1 : Assoc.get (zipped f g) k = some (l, c) ↔ (k, (l, c)) ∈ zipped f g := by
    constructor
    · exact Assoc.mem_of_get _ _ _
    · apply Assoc.get_of_mem
      simp only [Assoc.keys, zipped]
      exact hf.sublist (map_fst_zip_sublist _ _)
  rw [h1, List.mem_iff_getElem?]
  simp only [zipped, List.getElem?_zip_eq_some]
  rw [← mem_toList hg]
  constructor
  · rintro ⟨i, h2, h3⟩
    refine ⟨List.mem_iff_getElem?.mpr ⟨i, h3⟩, i, h2, ?_⟩
    rw [← keys_toList, List.getElem?_map, h3]
    rfl
  · rintro ⟨h2, i, h3, h4⟩
    refine ⟨i, h3, ?_⟩
    rw [← keys_toList, List.getElem?_map, Option.map_eq_some_iff] at h4
    obtain ⟨⟨l', c'⟩, h5, h6⟩ := h4
    simp only at h6
    subst h6
    have h7 := List.mem_iff_getElem?.mpr ⟨i, h5⟩
    rw [mem_toList hg] at h2 h7
    rw [h2] at h7
    cases h7
    exact h5

/-- What finding the child of the tree for a key of the template does. -/
def LookOk {α} (kd kd' : Kind) (fk : List Key) (g : Forest α) (look : Key → Option (Key × Tree α)) : Prop :=
  ∀ k ∈ fk, ∀ l c, look k = some (l, c) ↔ g.get l = some c ∧ Link kd kd' fk g.keys k l

/-- The nodes removed at a node. -/
def DropOk {α} (kd kd' : Kind) (fk : List Key) (g : Forest α) (d : List (List Key × Tree α)) : Prop :=
  ∀ x, x ∈ d ↔ ∃ l c, x = ([l], c) ∧ g.get l = some c ∧ ∀ k, ¬ Link kd kd' fk g.keys k l

theorem keyed_ok {α} {kd kd' : Kind} {fk : List Key} {g : Forest α} (key key' : Key → Atom) (hs : (kd.isSeq && kd'.isSeq) = false)
    (hg : (g.keys.map Key.str).Nodup)
    (hkk : ∀ k ∈ fk, ∀ l ∈ g.keys, key k = key' l ↔ k.str = l.str) (hk' : ∀ l ∈ g.keys, ∀ l' ∈ g.keys, key' l = key' l' → l.str = l'.str) :
    LookOk kd kd' fk g (fun k => Assoc.get (g.entries key') (key k)) ∧ DropOk kd kd' fk g (dropped (fk.map key) (g.entries key')) := by
  have hn : (g.keys.map key').Nodup := by
    simp only [List.Nodup, List.pairwise_map] at hg ⊢
    exact List.Pairwise.imp_of_mem (fun {a b} ha hb h e => h (hk' a ha b hb e)) hg
  constructor
  · intro k hk l c
    rw [get_entries key' g hn]
    simp only [Link, hs, Bool.false_eq_true, if_false]
    constructor
    · rintro ⟨h1, h2⟩
      exact ⟨h1, hk, Forest.get_mem h1, (hkk k hk l (Forest.get_mem h1)).mp h2.symm⟩
    · rintro ⟨h1, -, h2, h3⟩
      exact ⟨h1, ((hkk k hk l h2).mpr h3).symm⟩
  · intro x
    simp only [dropped, List.mem_map, List.mem_filter, Bool.not_eq_true', Link, hs, Bool.false_eq_true, if_false]
    constructor
    · rintro ⟨⟨a, l, c⟩, ⟨h1, h2⟩, rfl⟩
      obtain ⟨h3, rfl⟩ := (mem_entries key' g hn a l c).mp h1
      refine ⟨l, c, rfl, h3, ?_⟩
      rintro k ⟨h4, h5, h6⟩
      have : key' l ∈ fk.map key := by rw [← (hkk k h4 l h5).mpr h6]; exact List.mem_map_of_mem h4
      rw [← List.contains_iff_mem] at this
      rw [this] at h2
      cases h2
    · rintro ⟨l, c, rfl, h1, h2⟩
      refine ⟨(key' l, l, c), ⟨(mem_entries key' g hn _ l c).mpr ⟨h1, rfl⟩, ?_⟩, rfl⟩
      rw [← Bool.not_eq_true, List.contains_iff_mem, List.mem_map]
      rintro ⟨k, h3, h4⟩
      exact h2 k ⟨h3, Forest.get_mem h1, (hkk k h3 l (Forest.get_mem h1)).mp h4⟩

theorem zipped_ok {α β} {kd kd' : Kind} {f : Forest β} {g : Forest α} (hs : (kd.isSeq && kd'.isSeq) = true)
    (hf : (f.keys.map Key.str).Nodup) (hg : (g.keys.map Key.str).Nodup) (hlen : g.length = f.length) :
    LookOk kd kd' f.keys g (fun k => Assoc.get (zipped f g) k) ∧ DropOk kd kd' f.keys g [] := by
  constructor
  · intro k hk l c
    rw [get_zipped f g (nodup_of_map hf) (nodup_of_map hg)]
    simp only [Link, hs, if_true]
  · intro x
    simp only [List.not_mem_nil, false_iff, Link, hs, if_true]
    rintro ⟨l, c, rfl, h1, h2⟩
    obtain ⟨i, hi⟩ := List.mem_iff_getElem?.mp (Forest.get_mem h1)
    have : i < f.keys.length := by
      rw [← Forest.length_keys, ← hlen, Forest.length_keys]
      exact (List.getElem?_eq_some_iff.mp hi).1
    exact h2 _ ⟨i, List.getElem?_eq_getElem this, hi⟩

theorem nil_ok {α} {kd kd' : Kind} {fk : List Key} (look : Key → Option (Key × Tree α)) (h : ∀ k, look k = none) :
    LookOk kd kd' fk .nil look ∧ DropOk (α := α) kd kd' fk .nil [] :=
  ⟨fun k _ l c => by simp [h, Forest.get], fun x => by simp [Forest.get]⟩

theorem raw_str {l : List Key} (h : ∀ k ∈ l, ∃ n, k = .dict (.str n)) : ∀ k ∈ l, k.raw = .str k.str := by
  intro k hk
  obtain ⟨n, rfl⟩ := h k hk
  rfl
theorem raw_str' {l : List Key} (h : ∀ k ∈ l, ∃ n, k = .attr n) : ∀ k ∈ l, k.raw = .str k.str := by
  intro k hk
  obtain ⟨n, rfl⟩ := h k hk
  rfl

theorem str_keys {key key' : Key → Atom} {fk gk : List Key} (h : ∀ k ∈ fk, key k = .str k.str) (h' : ∀ l ∈ gk, key' l = .str l.str) :
    (∀ k ∈ fk, ∀ l ∈ gk, key k = key' l ↔ k.str = l.str) ∧ ∀ l ∈ gk, ∀ l' ∈ gk, key' l = key' l' → l.str = l'.str := by
  constructor
  · intro k hk l hl
    rw [h k hk, h' l hl, Atom.str.injEq]
  · intro l hl l' hl' e
    rw [h' l hl, h' l' hl', Atom.str.injEq] at e
    exact e

theorem wf_none {α} {g : Forest α} (h : (Tree.node .none g).Wf) : g = .nil := by
  have := h.1
  simp only [KeysWf] at this
  cases g with
  | nil => rfl
  | cons _ _ _ => simp [Forest.keys] at this

theorem seq_case {α β} {strict align : Bool} {kd kd' : Kind} {f : Forest β} {g : Forest α} {r d} (hk : kd.isSeq = true)
    (ht : (Tree.node kd f).Wf) (hs : (Tree.node kd' g).Wf)
    (h : (if (kd'.isSeq || decide (kd' = .none)) = true then
        if g.length ≠ f.length then none
        else (do
          let (r, d) ← f.trimWith strict align (fun k => Assoc.get (zipped f g) k)
          return (Tree.node kd r, d) : Option (Tree (Option α) × List (List Key × Tree α)))
      else none) = some (r, d)) :
    ∃ kd'' g' look r' d0 d', Tree.node kd' g = .node kd'' g' ∧ f.trimWith strict align look = some (r', d') ∧ r = .node kd r' ∧ d = d0 ++ d' ∧
      LookOk kd kd'' f.keys g' look ∧ DropOk kd kd'' f.keys g' d0 := by
  split at h
  · next hc =>
    split at h
    · cases h
    · next hl =>
      simp only [ne_eq, Decidable.not_not] at hl
      simp only [Option.bind_eq_bind, Option.bind_eq_some_iff, Option.pure_def, Option.some.injEq, Prod.mk.injEq, Prod.exists] at h
      obtain ⟨r', d', h2, rfl, rfl⟩ := h
      have hok : LookOk kd kd' f.keys g (fun k => Assoc.get (zipped f g) k) ∧ DropOk kd kd' f.keys g [] := by
        cases hk' : kd'.isSeq with
        | true => exact zipped_ok (by simp [hk, hk']) ht.2.1 hs.2.1 hl
        | false =>
          simp only [hk', Bool.false_or, decide_eq_true_eq] at hc
          subst hc
          have := wf_none hs
          subst this
          exact nil_ok _ (by intro k; simp [zipped, Forest.toList])
      exact ⟨kd', g, _, r', [], d', rfl, h2, rfl, rfl, hok.1, hok.2⟩
  · cases h

/-- What happens at a node. -/
theorem trim_node {α β} {strict align : Bool} {kd : Kind} {f : Forest β} {s : Tree α} {r d} (ht : (Tree.node kd f).Wf) (hs : s.Wf)
    (h : (Tree.node kd f).trim strict align s = some (r, d)) :
    (kd = .none ∧ f = .nil ∧ (∃ a, s = .leaf a) ∧ r = .pyNone ∧ d = [([], s)]) ∨
    ∃ kd' g look r' d0 d', s = .node kd' g ∧ f.trimWith strict align look = some (r', d') ∧ r = .node kd r' ∧ d = d0 ++ d' ∧
      LookOk kd kd' f.keys g look ∧ DropOk kd kd' f.keys g d0 := by
  cases kd with
  | none =>
    have hf : f = .nil := by
      have := ht.1
      simp only [KeysWf] at this
      cases f with
      | nil => rfl
      | cons _ _ _ => simp [Forest.keys] at this
    subst hf
    cases s with
    | leaf a =>
      simp only [Tree.trim, Option.some.injEq, Prod.mk.injEq] at h
      exact .inl ⟨rfl, rfl, ⟨a, rfl⟩, h.1.symm, h.2.symm⟩
    | node kd' g =>
      right
      simp only [Tree.trim, Option.map_eq_some_iff, Prod.mk.injEq] at h
      obtain ⟨es, h1, rfl, rfl⟩ := h
      have key : ∀ key', (∀ l ∈ g.keys, ∀ l' ∈ g.keys, key' l = key' l' → l.str = l'.str) → es = g.entries key' →
          ∃ kd'' g' look r' d0 d', Tree.node kd' g = .node kd'' g' ∧ (Forest.nil : Forest β).trimWith strict align look = some (r', d') ∧
            Tree.pyNone = .node .none r' ∧ dropped [] es = d0 ++ d' ∧ LookOk .none kd'' (Forest.nil : Forest β).keys g' look ∧
            DropOk .none kd'' (Forest.nil : Forest β).keys g' d0 := by
        intro key' hk' e
        obtain ⟨h2, h3⟩ := keyed_ok (kd := .none) (kd' := kd') (fk := []) (g := g) cleanKey key' rfl hs.2.1 (by simp) hk'
        exact ⟨kd', g, _, .nil, _, [], rfl, rfl, rfl, by rw [e]; simp, h2, h3⟩
      have hc : ∀ l ∈ g.keys, ∀ l' ∈ g.keys, cleanKey l = cleanKey l' → l.str = l'.str := by
        intro l _ l' _ e; simpa [cleanKey] using e
      cases kd' with
      | none =>
        simp only [asDict, Option.some.injEq] at h1
        have hg := wf_none hs
        subst hg
        exact key cleanKey hc h1.symm
      | dict =>
        simp only [asDict, Option.some.injEq] at h1
        exact key Key.raw (str_keys (key := Key.raw) (key' := Key.raw) (fk := []) (by simp) (raw_str hs.1)).2 h1.symm
      | list =>
        simp only [asDict, Option.ite_none_right_eq_some, Option.some.injEq] at h1
        exact key cleanKey hc h1.2.symm
      | tuple =>
        simp only [asDict, Option.ite_none_right_eq_some, Option.some.injEq] at h1
        exact key cleanKey hc h1.2.symm
      | named n =>
        simp only [asDict, Option.some.injEq] at h1
        exact key cleanKey hc h1.symm
      | custom n =>
        simp only [asDict, Option.some.injEq] at h1
        exact key cleanKey hc h1.symm
  | dict =>
    right
    simp only [Tree.trim, Option.bind_eq_bind, Option.bind_eq_some_iff, Option.pure_def, Option.some.injEq, Prod.mk.injEq, Prod.exists] at h
    obtain ⟨es, h1, r', d', h2, rfl, rfl⟩ := h
    cases s with
    | leaf a => cases h1
    | node kd' g =>
      have hc := str_keys (key := Key.raw) (key' := cleanKey) (gk := g.keys) (raw_str ht.1) (fun l _ => rfl)
      have key : es = g.entries cleanKey → _ := fun e => by
        subst e
        obtain ⟨h3, h4⟩ := keyed_ok (kd := .dict) (kd' := kd') (fk := f.keys) (g := g) Key.raw cleanKey rfl hs.2.1 hc.1 hc.2
        exact (⟨kd', g, _, r', _, d', rfl, h2, rfl, rfl, h3, h4⟩ : ∃ kd'' g' look r'' d0 d'', Tree.node kd' g = .node kd'' g' ∧
          f.trimWith strict align look = some (r'', d'') ∧ Tree.node .dict r' = .node .dict r'' ∧
          dropped (f.keys.map Key.raw) (g.entries cleanKey) ++ d' = d0 ++ d'' ∧ LookOk .dict kd'' f.keys g' look ∧ DropOk .dict kd'' f.keys g' d0)
      cases kd' with
      | none =>
        have hg := wf_none hs
        subst hg
        simp only [asDict, Option.some.injEq] at h1
        subst h1
        obtain ⟨h3, h4⟩ := keyed_ok (kd := .dict) (kd' := .none) (fk := f.keys) (g := (.nil : Forest α)) Key.raw cleanKey rfl hs.2.1 hc.1 hc.2
        exact ⟨.none, .nil, _, r', _, d', rfl, h2, rfl, rfl, h3, h4⟩
      | dict =>
        simp only [asDict, Option.some.injEq] at h1
        subst h1
        have hr := str_keys (key := Key.raw) (key' := Key.raw) (raw_str ht.1) (raw_str hs.1)
        obtain ⟨h3, h4⟩ := keyed_ok (kd := .dict) (kd' := .dict) (fk := f.keys) (g := g) Key.raw Key.raw rfl hs.2.1 hr.1 hr.2
        exact ⟨.dict, g, _, r', _, d', rfl, h2, rfl, rfl, h3, h4⟩
      | list =>
        simp only [asDict, Option.ite_none_right_eq_some, Option.some.injEq] at h1
        have e := h1.2.symm
        subst e
        exact key rfl
      | tuple =>
        simp only [asDict, Option.ite_none_right_eq_some, Option.some.injEq] at h1
        have e := h1.2.symm
        subst e
        exact key rfl
      | named n =>
        simp only [asDict, Option.some.injEq] at h1
        subst h1
        exact key rfl
      | custom n =>
        simp only [asDict, Option.some.injEq] at h1
        subst h1
        exact key rfl
  | custom n =>
    right
    cases s with
    | leaf a => simp [Tree.trim] at h
    | node kd' g =>
      simp only [Tree.trim, Option.bind_eq_bind, Option.bind_eq_some_iff, Option.pure_def, Option.some.injEq, Prod.mk.injEq, Prod.exists] at h
      obtain ⟨r', d', h2, rfl, rfl⟩ := h
      have hc := str_keys (key := cleanKey) (key' := cleanKey) (fk := f.keys) (gk := g.keys) (fun k _ => rfl) (fun l _ => rfl)
      obtain ⟨h3, h4⟩ := keyed_ok (kd := .custom n) (kd' := kd') (fk := f.keys) (g := g) cleanKey cleanKey rfl hs.2.1 hc.1 hc.2
      exact ⟨kd', g, _, r', _, d', rfl, h2, rfl, rfl, h3, h4⟩
  | list =>
    right
    cases s with
    | leaf a => simp [Tree.trim] at h
    | node kd' g => exact seq_case rfl ht hs (by simpa only [Tree.trim] using h)
  | tuple =>
    right
    cases s with
    | leaf a => simp [Tree.trim] at h
    | node kd' g => exact seq_case rfl ht hs (by simpa only [Tree.trim] using h)
  | named n =>
    right
    cases s with
    | leaf a => simp [Tree.trim] at h
    | node kd' g =>
      by_cases hkd : kd' = .dict
      · subst hkd
        simp only [Tree.trim, Option.bind_eq_bind, Option.bind_eq_some_iff, Option.pure_def, Option.some.injEq, Prod.mk.injEq, Prod.exists] at h
        obtain ⟨r', d', h2, rfl, rfl⟩ := h
        have hr := str_keys (key := Key.raw) (key' := Key.raw) (raw_str' ht.1) (raw_str hs.1)
        obtain ⟨h3, h4⟩ := keyed_ok (kd := .named n) (kd' := .dict) (fk := f.keys) (g := g) Key.raw Key.raw rfl hs.2.1 hr.1 hr.2
        exact ⟨.dict, g, _, r', _, d', rfl, h2, rfl, rfl, h3, h4⟩
      · refine seq_case rfl ht hs ?_
        cases kd' <;> first | exact absurd rfl hkd | simpa only [Tree.trim] using h

theorem link_left {kd kd' : Kind} {fk gk : List Key} (hg : (gk.map Key.str).Nodup) {k k' l : Key} (hf : (fk.map Key.str).Nodup)
    (h : Link kd kd' fk gk k l) (h' : Link kd kd' fk gk k' l) : k = k' := by
  have inj : ∀ {xs : List Key}, (xs.map Key.str).Nodup → ∀ {a b}, a ∈ xs → b ∈ xs → a.str = b.str → a = b := by
    intro xs
    induction xs with
    | nil => intro _ a b h; simp at h
    | cons x xs ih =>
      intro hn a b ha hb e
      simp only [List.map_cons, List.nodup_cons] at hn
      simp only [List.mem_cons] at ha hb
      rcases ha with rfl | ha <;> rcases hb with rfl | hb
      · rfl
      · exact absurd (by rw [e]; exact List.mem_map_of_mem hb) hn.1
      · exact absurd (by rw [← e]; exact List.mem_map_of_mem ha) hn.1
      · exact ih hn.2 ha hb e
  simp only [Link] at h h'
  split at h
  · next hs =>
    simp only [hs, if_true] at h'
    obtain ⟨i, h1, h2⟩ := h
    obtain ⟨j, h3, h4⟩ := h'
    have hij : i = j := (List.getElem?_inj (List.getElem?_eq_some_iff.mp h2).1 (nodup_of_map hg)).mp (by rw [h2, h4])
    subst hij
    rw [h1] at h3
    exact Option.some.inj h3
  · next hs =>
    simp only [hs, if_false] at h'
    exact inj hf h.1 h'.1 (by rw [h.2.2, h'.2.2])

theorem relabel_none {α β} (t : Tree β) (hd : t.Distinct) (ks : List Key) (a : α) :
    (t.relabel (fun _ => (none : Option α)) []).at_ ks ≠ some (.leaf (some a)) := by
  intro h
  have := ((t.relabel (fun _ => (none : Option α)) []).flat_spec false (relabel_distinct _ _ _ hd) ks (.leaf (some a))).mpr
    ⟨h, rfl, fun _ => ⟨_, rfl⟩⟩
  rw [relabel_flat] at this
  obtain ⟨x, -, e⟩ := List.mem_map.mp this
  simp at e

theorem under_mem {α} {l : Key} {d : List (List Key × Tree α)} {x : List Key × Tree α} : x ∈ under l d ↔ ∃ q, x.1 = l :: q ∧ (q, x.2) ∈ d := by
  simp only [under, List.mem_map]
  constructor
  · rintro ⟨y, hy, rfl⟩; exact ⟨y.1, rfl, hy⟩
  · rintro ⟨q, h1, h2⟩; exact ⟨(q, x.2), h2, by rw [← h1]⟩

/-- The facts about one call. -/
structure TrimSpec {α β} (t : Tree β) (s : Tree α) (r : Tree (Option α)) (d : List (List Key × Tree α)) : Prop where
  distinct : r.Distinct
  leaves : ∀ ks a, r.at_ ks = some (.leaf (some a)) ↔
    (∃ b, t.at_ ks = some (.leaf b)) ∧ ∃ ls, Corr t s ks ls ∧ s.at_ ls = some (.leaf a)
  drops : ∀ x ∈ d, s.at_ x.1 = some x.2
  cover : ∀ ls a, s.at_ ls = some (.leaf a) → ((∃ ks b, t.at_ ks = some (.leaf b) ∧ Corr t s ks ls) ↔ ¬ Below d ls)

/-- The facts about the calls for the children. -/
structure TrimSpecF {α β} (look : Key → Option (Key × Tree α)) (f : Forest β) (r : Forest (Option α)) (d : List (List Key × Tree α)) : Prop where
  keys : r.keys = f.keys
  distinct : r.Distinct
  leaves : ∀ k ks a, ((r.get k).bind fun c => c.at_ ks) = some (.leaf (some a)) ↔
    ∃ t, f.get k = some t ∧ (∃ b, t.at_ ks = some (.leaf b)) ∧ ∃ l c ls, look k = some (l, c) ∧ Corr t c ks ls ∧ c.at_ ls = some (.leaf a)
  drops : ∀ x ∈ d, ∃ k l c q, k ∈ f.keys ∧ look k = some (l, c) ∧ x.1 = l :: q ∧ c.at_ q = some x.2
  cover : ∀ k t l c, f.get k = some t → look k = some (l, c) → ∀ ls a, c.at_ ls = some (.leaf a) →
    ((∃ ks b, t.at_ ks = some (.leaf b) ∧ Corr t c ks ls) ↔ ¬ Below d (l :: ls))

theorem corr_leaf_left {α β} {b : β} {s : Tree α} {ks ls} (h : Corr (.leaf b) s ks ls) : ks = [] ∧ ls = [] := by
  cases h; exact ⟨rfl, rfl⟩

theorem corr_leaf_right {α β} {a : α} {t : Tree β} {ks ls} (h : Corr t (.leaf a) ks ls) : ks = [] ∧ ls = [] := by
  cases h; exact ⟨rfl, rfl⟩

mutual
theorem trim_spec {α β} {strict align : Bool} : ∀ (t : Tree β) (s : Tree α) (r d), t.Wf → s.Wf → t.trim strict align s = some (r, d) →
    TrimSpec t s r d
  | .leaf b, s, r, d, ht, hs, h => by
    cases s with
    | leaf a =>
      simp only [Tree.trim, Option.some.injEq, Prod.mk.injEq] at h
      obtain ⟨rfl, rfl⟩ := h
      refine ⟨trivial, ?_, by simp, ?_⟩
      · intro ks a'
        constructor
        · intro h
          cases ks with
          | nil => cases h; exact ⟨⟨b, rfl⟩, [], .nil _ _, rfl⟩
          | cons k ks => cases h
        · rintro ⟨⟨b', h1⟩, ls, h2, h3⟩
          obtain ⟨rfl, rfl⟩ := corr_leaf_left h2
          cases h3
          rfl
      · intro ls a' h
        cases ls with
        | nil => exact iff_of_true ⟨[], b, rfl, .nil _ _⟩ (by simp [Below])
        | cons l ls => cases h
    | node kd g =>
      have hkd : kd = .none ∧ r = .pyNone ∧ d = [] := by
        cases kd <;> simp only [Tree.trim, reduceCtorEq, Option.some.injEq, Prod.mk.injEq] at h
        exact ⟨rfl, h.1.symm, h.2.symm⟩
      obtain ⟨rfl, rfl, rfl⟩ := hkd
      have := wf_none hs
      subst this
      refine ⟨?_, ?_, by simp, ?_⟩
      · simp [Tree.pyNone, Tree.Distinct, Forest.keys, Forest.Distinct]
      · intro ks a
        constructor
        · intro h
          cases ks with
          | nil => cases h
          | cons k ks => cases h
        · rintro ⟨⟨b', h1⟩, ls, h2, h3⟩
          obtain ⟨rfl, rfl⟩ := corr_leaf_left h2
          cases h3
      · intro ls a h
        cases ls with
        | nil => cases h
        | cons l ls => cases h
  | .node kd f, s, r, d, ht, hs, h => by
    rcases trim_node ht hs h with ⟨rfl, rfl, ⟨a, rfl⟩, rfl, rfl⟩ | ⟨kd', g, look, r', d0, d', rfl, h1, rfl, rfl, hl, hd⟩
    · refine ⟨?_, ?_, ?_, ?_⟩
      · simp [Tree.pyNone, Tree.Distinct, Forest.keys, Forest.Distinct]
      · intro ks a'
        constructor
        · intro h
          cases ks with
          | nil => cases h
          | cons k ks => cases h
        · rintro ⟨⟨b', h1⟩, -⟩
          cases ks with
          | nil => cases h1
          | cons k ks => cases h1
      · intro x hx
        simp only [List.mem_singleton] at hx
        subst hx
        rfl
      · intro ls a' h
        refine iff_of_false ?_ ?_
        · rintro ⟨ks, b, h1, -⟩
          cases ks with
          | nil => cases h1
          | cons k ks => cases h1
        · intro h
          exact h ⟨_, List.mem_singleton.mpr rfl, List.nil_prefix⟩
    · have hlw : ∀ k ∈ f.keys, ∀ l c, look k = some (l, c) → c.Wf := fun k hk l c e => Forest.get_wf hs.2.2 ((hl k hk l c).mp e).1
      have hinj : ∀ k ∈ f.keys, ∀ k' ∈ f.keys, ∀ l c c', look k = some (l, c) → look k' = some (l, c') → k = k' := by
        intro k hk k' hk' l c c' e e'
        exact link_left hs.2.1 ht.2.1 ((hl k hk l c).mp e).2 ((hl k' hk' l c').mp e').2
      have hF := trimWith_spec f look r' d' ht.2.2 hlw hinj (nodup_of_map ht.2.1) h1
      refine ⟨⟨by rw [hF.keys]; exact ht.2.1, hF.distinct⟩, ?_, ?_, ?_⟩
      · intro ks a
        cases ks with
        | nil => exact iff_of_false (by intro e; cases e) (by rintro ⟨⟨b, e⟩, -⟩; cases e)
        | cons k ks =>
          simp only [Tree.at_]
          rw [hF.leaves]
          constructor
          · rintro ⟨t, h2, ⟨b, h3⟩, l, c, ls, h4, h5, h6⟩
            obtain ⟨h7, h8⟩ := (hl k (Forest.get_mem h2) l c).mp h4
            exact ⟨⟨b, by rw [h2]; exact h3⟩, l :: ls, .cons h2 h7 h8 h5, by simp only [Tree.at_, h7]; exact h6⟩
          · rintro ⟨⟨b, h3⟩, ls, h4, h5⟩
            cases h4 with
            | cons h6 h7 h8 h9 =>
              rename_i l t c ls
              refine ⟨t, h6, ⟨b, by rw [h6] at h3; exact h3⟩, l, c, ls, (hl k (Forest.get_mem h6) l c).mpr ⟨h7, h8⟩, h9, ?_⟩
              simp only [Tree.at_, h7] at h5
              exact h5
      · intro x hx
        rcases List.mem_append.mp hx with hx | hx
        · obtain ⟨l, c, rfl, h2, -⟩ := (hd x).mp hx
          simp only [Tree.at_, h2]
          rfl
        · obtain ⟨k, l, c, q, h2, h3, h4, h5⟩ := hF.drops x hx
          rw [h4]
          simp only [Tree.at_, ((hl k h2 l c).mp h3).1]
          exact h5
      · intro ls a h2
        cases ls with
        | nil => cases h2
        | cons l ls =>
          simp only [Tree.at_, Option.bind_eq_some_iff] at h2
          obtain ⟨c, h3, h4⟩ := h2
          have hbelow : Below (d0 ++ d') (l :: ls) ↔ (∀ k, ¬ Link kd kd' f.keys g.keys k l) ∨ Below d' (l :: ls) := by
            constructor
            · rintro ⟨x, hx, hp⟩
              rcases List.mem_append.mp hx with hx | hx
              · left
                obtain ⟨l', c', rfl, -, h6⟩ := (hd x).mp hx
                have : l' = l := by simpa using hp
                subst this
                exact h6
              · exact .inr ⟨x, hx, hp⟩
            · rintro (h5 | ⟨x, hx, hp⟩)
              · exact ⟨([l], c), List.mem_append_left _ ((hd _).mpr ⟨l, c, rfl, h3, h5⟩), by simp⟩
              · exact ⟨x, List.mem_append_right _ hx, hp⟩
          rw [hbelow]
          by_cases hlink : ∃ k, Link kd kd' f.keys g.keys k l
          · obtain ⟨k, hk⟩ := hlink
            have hkf : k ∈ f.keys := by
              simp only [Link] at hk
              split at hk
              · obtain ⟨i, hi, -⟩ := hk; exact List.mem_iff_getElem?.mpr ⟨i, hi⟩
              · exact hk.1
            cases hg : f.get k with
            | none => exact absurd hkf (Forest.get_none.mp hg)
            | some t =>
              have hc := hF.cover k t l c hg ((hl k hkf l c).mpr ⟨h3, hk⟩) ls a h4
              have hno : ¬ ∀ k, ¬ Link kd kd' f.keys g.keys k l := fun hall => hall k hk
              simp only [hno, false_or]
              rw [← hc]
              constructor
              · rintro ⟨ks, b, h5, h6⟩
                cases h6 with
                | cons h7 h8 h9 h10 =>
                  rename_i k' t' c' ks
                  have := link_left hs.2.1 ht.2.1 hk h9
                  subst this
                  rw [h3] at h8; cases h8
                  rw [hg] at h7; cases h7
                  simp only [Tree.at_, hg] at h5
                  exact ⟨ks, b, h5, h10⟩
              · rintro ⟨ks, b, h5, h6⟩
                exact ⟨k :: ks, b, by simp only [Tree.at_, hg]; exact h5, .cons hg h3 hk h6⟩
          · refine iff_of_false ?_ ?_
            · rintro ⟨ks, b, h5, h6⟩
              cases h6 with
              | cons h7 h8 h9 h10 => exact hlink ⟨_, h9⟩
            · intro h
              exact h (.inl fun k hk => hlink ⟨k, hk⟩)
theorem trimWith_spec {α β} {strict align : Bool} : ∀ (f : Forest β) (look : Key → Option (Key × Tree α)) (r d), f.Wf →
    (∀ k ∈ f.keys, ∀ l c, look k = some (l, c) → c.Wf) →
    (∀ k ∈ f.keys, ∀ k' ∈ f.keys, ∀ l c c', look k = some (l, c) → look k' = some (l, c') → k = k') →
    f.keys.Nodup → f.trimWith strict align look = some (r, d) → TrimSpecF look f r d
  | .nil, look, r, d, _, _, _, _, h => by
    simp only [Forest.trimWith, Option.some.injEq, Prod.mk.injEq] at h
    obtain ⟨rfl, rfl⟩ := h
    exact ⟨rfl, trivial, by simp [Forest.get], by simp, by simp [Forest.get]⟩
  | .cons k t f, look, r, d, hw, hl, hi, hn, h => by
    simp only [Forest.keys, List.nodup_cons] at hn
    have hl' : ∀ k ∈ f.keys, ∀ l c, look k = some (l, c) → c.Wf := fun k' hk' => hl k' (List.mem_cons_of_mem _ hk')
    have hi' : ∀ k ∈ f.keys, ∀ k' ∈ f.keys, ∀ l c c', look k = some (l, c) → look k' = some (l, c') → k = k' :=
      fun k1 h1 k2 h2 => hi k1 (List.mem_cons_of_mem _ h1) k2 (List.mem_cons_of_mem _ h2)
    simp only [Forest.trimWith] at h
    cases hk : look k with
    | none =>
      simp only [hk] at h
      split at h
      · cases h
      · simp only [Option.map_eq_some_iff, Prod.mk.injEq] at h
        obtain ⟨⟨r', d'⟩, h1, rfl, rfl⟩ := h
        have hF := trimWith_spec f look r' d' hw.2 hl' hi' hn.2 h1
        refine ⟨by simp [Forest.keys, hF.keys], ⟨relabel_distinct _ _ _ (wf_distinct hw.1), hF.distinct⟩, ?_, ?_, ?_⟩
        · intro k' ks a
          simp only [Forest.get]
          by_cases e : k = k'
          · subst e
            simp only [if_true, Option.bind_some]
            refine iff_of_false (relabel_none t (wf_distinct hw.1) ks a) ?_
            rintro ⟨t', -, -, l, c, ls, h2, -⟩
            rw [hk] at h2
            cases h2
          · simp only [e, if_false]
            exact hF.leaves k' ks a
        · intro x hx
          obtain ⟨k', l, c, q, h2, h3⟩ := hF.drops x hx
          exact ⟨k', l, c, q, List.mem_cons_of_mem _ h2, h3⟩
        · intro k' t' l c h2 h3
          simp only [Forest.get] at h2
          by_cases e : k = k'
          · subst e
            rw [hk] at h3
            cases h3
          · simp only [e, if_false] at h2
            exact hF.cover k' t' l c h2 h3
    | some x =>
      obtain ⟨l0, c0⟩ := x
      simp only [hk] at h
      simp only [Option.bind_eq_bind, Option.bind_eq_some_iff, Option.pure_def, Option.some.injEq, Prod.mk.injEq, Prod.exists] at h
      obtain ⟨t', d1, h1, r', d', h2, rfl, rfl⟩ := h
      have hF := trimWith_spec f look r' d' hw.2 hl' hi' hn.2 h2
      have hT := trim_spec t c0 t' d1 hw.1 (hl k (List.mem_cons_self) l0 c0 hk) h1
      have hothers : ∀ k' ∈ f.keys, ∀ l c, look k' = some (l, c) → l ≠ l0 := by
        intro k' hk' l c e el
        subst el
        have := hi k List.mem_cons_self k' (List.mem_cons_of_mem _ hk') l c0 c hk e
        subst this
        exact hn.1 hk'
      refine ⟨by simp [Forest.keys, hF.keys], ⟨hT.distinct, hF.distinct⟩, ?_, ?_, ?_⟩
      · intro k' ks a
        simp only [Forest.get]
        by_cases e : k = k'
        · subst e
          simp only [if_true, Option.bind_some]
          rw [hT.leaves]
          constructor
          · rintro ⟨h3, ls, h4, h5⟩
            exact ⟨t, rfl, h3, l0, c0, ls, hk, h4, h5⟩
          · rintro ⟨t2, h3, h4, l, c, ls, h5, h6, h7⟩
            rw [hk] at h5
            cases h5
            cases h3
            exact ⟨h4, ls, h6, h7⟩
        · simp only [e, if_false]
          exact hF.leaves k' ks a
      · intro x hx
        rcases List.mem_append.mp hx with hx | hx
        · obtain ⟨q, h3, h4⟩ := under_mem.mp hx
          exact ⟨k, l0, c0, q, List.mem_cons_self, hk, h3, hT.drops _ h4⟩
        · obtain ⟨k', l, c, q, h3, h4⟩ := hF.drops x hx
          exact ⟨k', l, c, q, List.mem_cons_of_mem _ h3, h4⟩
      · intro k' t2 l c h3 h4 ls a h5
        simp only [Forest.get] at h3
        have hsplit : Below (under l0 d1 ++ d') (l :: ls) ↔ (l = l0 ∧ Below d1 ls) ∨ Below d' (l :: ls) := by
          constructor
          · rintro ⟨x, hx, hp⟩
            rcases List.mem_append.mp hx with hx | hx
            · obtain ⟨q, h6, h7⟩ := under_mem.mp hx
              rw [h6, List.cons_prefix_cons] at hp
              exact .inl ⟨hp.1.symm, _, h7, hp.2⟩
            · exact .inr ⟨x, hx, hp⟩
          · rintro (⟨rfl, x, hx, hp⟩ | ⟨x, hx, hp⟩)
            · exact ⟨(l :: x.1, x.2), List.mem_append_left _ (under_mem.mpr ⟨x.1, rfl, hx⟩), List.cons_prefix_cons.mpr ⟨rfl, hp⟩⟩
            · exact ⟨x, List.mem_append_right _ hx, hp⟩
        rw [hsplit]
        by_cases e : k = k'
        · subst e
          simp only [if_true, Option.some.injEq] at h3
          subst h3
          rw [hk] at h4
          cases h4
          have hno : ¬ Below d' (l0 :: ls) := by
            rintro ⟨x, hx, hp⟩
            obtain ⟨k', l', c', q, h6, h7, h8, -⟩ := hF.drops x hx
            rw [h8, List.cons_prefix_cons] at hp
            exact hothers k' h6 l' c' h7 hp.1
          rw [hT.cover ls a h5]
          simp only [hno, or_false, true_and]
        · simp only [e, if_false] at h3
          have hne := hothers k' (Forest.get_mem h3) l c h4
          rw [hF.cover k' t2 l c h3 h4 ls a h5]
          simp only [hne, false_and, false_or]
end

/-! ### The theorems -/

/-- Names of corresponding paths agree if there are no named tuples. -/
theorem corr_names {α β} {t : Tree β} {s : Tree α} {ks ls : List Key} (h : Corr t s ks ls) (ht : t.Wf) (hs : s.Wf)
    (hn : t.NoNamed) (hn' : s.NoNamed) : strPath ks = strPath ls := by
  induction h with
  | nil => rfl
  | cons h1 h2 h3 h4 ih =>
    rename_i kd kd' f g k l t c ks ls
    have e : k.str = l.str := by
      simp only [Link] at h3
      split at h3
      · next hseq =>
        simp only [Bool.and_eq_true] at hseq
        obtain ⟨i, h5, h6⟩ := h3
        have hk : ∀ {γ} (kd : Kind) (f : Forest γ) (k : Key), (Tree.node kd f).Wf → (Tree.node kd f).NoNamed → kd.isSeq = true → f.keys[i]? = some k → k = .seq i := by
          intro γ kd f k hw hn hs hi
          have hsf : SeqFrom Key.seq 0 f.keys := by
            cases kd with
            | list => exact hw.1
            | tuple => exact hw.1
            | named n => exact absurd rfl (hn.1 n)
            | none => cases hs
            | dict => cases hs
            | custom n => cases hs
          have : ∀ (l : List Key) (j i : Nat), SeqFrom Key.seq j l → l[i]? = some k → k = .seq (j + i) := by
            intro l
            induction l with
            | nil => intro j i _ h; simp at h
            | cons x l ih =>
              intro j i hx h
              cases i with
              | zero => simp only [List.getElem?_cons_zero, Option.some.injEq] at h; rw [← h, hx.1]; rfl
              | succ i =>
                simp only [List.getElem?_cons_succ] at h
                rw [ih (j + 1) i hx.2 h]
                congr 1
                omega
          simpa using this _ 0 i hsf hi
        rw [hk kd f k ht hn hseq.1 h5, hk kd' g l hs hn' hseq.2 h6]
      · exact h3.2.2
    have hnn : ∀ {γ} {f : Forest γ} {k c}, f.NoNamed → f.get k = some c → c.NoNamed := by
      intro γ f
      induction f using Forest.rec (motive_1 := fun _ => True) with
      | nil => intro k c _ h; simp [Forest.get] at h
      | cons k' t r _ ih =>
        intro k c hf h
        simp only [Forest.get] at h
        split at h
        · cases h; exact hf.1
        · exact ih hf.2 h
      | leaf => trivial
      | node => trivial
    have := ih (Forest.get_wf ht.2.2 h1) (Forest.get_wf hs.2.2 h2) (hnn hn.2 h1) (hnn hn'.2 h2)
    simp only [strPath, List.map_cons, e] at this ⊢
    rw [this]

theorem trimParts_spec {α β} {strict align : Bool} {template : Tree β} {s : Tree α} {p : Parts α} {d} (ht : template.Wf) (hs : s.Wf)
    (h : trimParts strict align template s = some (p, d)) :
    p.Ok ∧ p.template = template.shape ∧ (∀ q a, p.lookup q = some a ↔
      ∃ ks ls, strPath ks = q ∧ (∃ b, template.at_ ks = some (.leaf b)) ∧ Corr template s ks ls ∧ s.at_ ls = some (.leaf a)) ∧
    ∃ r, TrimSpec template s r d := by
  simp only [trimParts, Option.bind_eq_bind, Option.bind_eq_some_iff, Option.pure_def, Option.some.injEq, Prod.mk.injEq, Prod.exists] at h
  obtain ⟨r, d', h1, p', h2, rfl, rfl⟩ := h
  have hT := trim_spec template s r d' ht hs h1
  obtain ⟨h3, h4, h5⟩ := (C46_init template r (wf_distinct ht) hT.distinct).2 p' h2
  refine ⟨h3, h4, ?_, r, hT⟩
  intro q a
  rw [h5]
  constructor
  · rintro ⟨ks, rfl, h6⟩
    obtain ⟨h7, ls, h8, h9⟩ := (hT.leaves ks a).mp h6
    exact ⟨ks, ls, rfl, h7, h8, h9⟩
  · rintro ⟨ks, ls, rfl, h7, h8, h9⟩
    exact ⟨ks, rfl, (hT.leaves ks a).mpr ⟨h7, ls, h8, h9⟩⟩

/-- C44 (what is kept): the result of trimming is over the structure of the template, and its value at a leaf of the
template is the leaf of the tree at the corresponding path, if it has one there, and nothing otherwise. -/
theorem C44_kept {α β} (strict align : Bool) (template : Tree β) (s : Tree α) (p : Parts α) (d : List (List Key × Tree α))
    (ht : template.Wf) (hs : s.Wf) (h : trimParts strict align template s = some (p, d)) :
    p.Ok ∧ p.template = template.shape ∧ ∀ q a, p.lookup q = some a ↔
      ∃ ks ls, strPath ks = q ∧ (∃ b, template.at_ ks = some (.leaf b)) ∧ Corr template s ks ls ∧ s.at_ ls = some (.leaf a) := by
  obtain ⟨h1, h2, h3, -⟩ := trimParts_spec ht hs h
  exact ⟨h1, h2, h3⟩

theorem seqFrom_get : ∀ (l : List Key) (j i : Nat), SeqFrom Key.seq j l → i < l.length → l[i]? = some (.seq (j + i))
  | [], _, _, _, h => by simp at h
  | x :: l, j, i, hx, h => by
    cases i with
    | zero => simp [hx.1]
    | succ i =>
      rw [List.getElem?_cons_succ, seqFrom_get l (j + 1) i hx.2 (by simpa using h)]
      congr 2
      omega

theorem seqFrom_mem' : ∀ (l : List Key) (j : Nat), SeqFrom Key.seq j l → ∀ k ∈ l, ∃ i, i < l.length ∧ k = .seq (j + i)
  | [], _, _, k, h => by simp at h
  | x :: l, j, hx, k, h => by
    rcases List.mem_cons.mp h with rfl | h
    · exact ⟨0, by simp, by rw [hx.1]; rfl⟩
    · obtain ⟨i, h1, h2⟩ := seqFrom_mem' l (j + 1) hx.2 k h
      exact ⟨i + 1, by simpa using h1, by rw [h2]; congr 1; omega⟩

theorem Forest.get_noNamed {α} : ∀ {f : Forest α} {k c}, f.NoNamed → f.get k = some c → c.NoNamed
  | .nil, _, _, _, h => by simp [Forest.get] at h
  | .cons k' t r, k, c, ho, h => by
    simp only [Forest.get] at h
    split at h
    · cases h; exact ho.1
    · exact Forest.get_noNamed ho.2 h

theorem str_inj_on {xs : List Key} (hn : (xs.map Key.str).Nodup) {a b : Key} (ha : a ∈ xs) (hb : b ∈ xs) (e : a.str = b.str) : a = b := by
  induction xs with
  | nil => simp at ha
  | cons x xs ih =>
    simp only [List.map_cons, List.nodup_cons] at hn
    simp only [List.mem_cons] at ha hb
    rcases ha with rfl | ha <;> rcases hb with rfl | hb
    · rfl
    · exact absurd (by rw [e]; exact List.mem_map_of_mem hb) hn.1
    · exact absurd (by rw [← e]; exact List.mem_map_of_mem ha) hn.1
    · exact ih hn.2 ha hb

/-- Paths with the same names correspond if there are no named tuples. -/
theorem names_corr {α β} : ∀ (ks ls : List Key) (t : Tree β) (s : Tree α) (b : β) (a : α), t.Wf → s.Wf → t.NoNamed → s.NoNamed →
    t.at_ ks = some (.leaf b) → s.at_ ls = some (.leaf a) → strPath ks = strPath ls → Corr t s ks ls
  | [], ls, t, s, b, a, _, _, _, _, _, _, e => by
    cases ls with
    | nil => exact .nil _ _
    | cons l ls => cases e
  | k :: ks, ls, t, s, b, a, ht, hs, hn, hn', h1, h2, e => by
    cases ls with
    | nil => cases e
    | cons l ls =>
      simp only [strPath, List.map_cons, List.cons.injEq] at e
      cases t with
      | leaf _ => cases h1
      | node kd f => cases s with
        | leaf _ => cases h2
        | node kd' g =>
          simp only [Tree.at_, Option.bind_eq_some_iff] at h1 h2
          obtain ⟨t, h3, h4⟩ := h1
          obtain ⟨c, h5, h6⟩ := h2
          refine .cons h3 h5 ?_ (names_corr ks ls t c b a (Forest.get_wf ht.2.2 h3) (Forest.get_wf hs.2.2 h5)
            (Forest.get_noNamed hn.2 h3) (Forest.get_noNamed hn'.2 h5) h4 h6 e.2)
          simp only [Link]
          split
          · next hseq =>
            simp only [Bool.and_eq_true] at hseq
            have hsf : ∀ {γ} {kd : Kind} {f : Forest γ}, (Tree.node kd f).Wf → (Tree.node kd f).NoNamed → kd.isSeq = true → SeqFrom Key.seq 0 f.keys := by
              intro γ kd f hw hn hs
              cases kd with
              | list => exact hw.1
              | tuple => exact hw.1
              | named n => exact absurd rfl (hn.1 n)
              | none => cases hs
              | dict => cases hs
              | custom n => cases hs
            have hf := hsf ht hn hseq.1
            have hg := hsf hs hn' hseq.2
            obtain ⟨i, hi, rfl⟩ := seqFrom_mem' _ 0 hf k (Forest.get_mem h3)
            obtain ⟨j, hj, rfl⟩ := seqFrom_mem' _ 0 hg l (Forest.get_mem h5)
            have hij : i = j := by
              have key : ∀ {x : List Key} {i j : Nat}, SeqFrom Key.seq 0 x → (x.map Key.str).Nodup → i < x.length → j < x.length →
                  (Key.seq i).str = (Key.seq j).str → i = j := by
                intro x i j hx hnd hi hj e
                have h7 := List.mem_of_getElem? (seqFrom_get x 0 i hx hi)
                have h8 := List.mem_of_getElem? (seqFrom_get x 0 j hx hj)
                rw [Nat.zero_add] at h7 h8
                have := str_inj_on hnd h7 h8 e
                cases this
                rfl
              have e1 : (Key.seq i).str = (Key.seq j).str := by simpa using e.1
              rcases Nat.lt_or_ge i g.keys.length with h7 | h7
              · exact key hg hs.2.1 h7 hj e1
              · exact key hf ht.2.1 hi (by omega) e1
            subst hij
            exact ⟨i, by simpa using seqFrom_get _ 0 i hf hi, by simpa using seqFrom_get _ 0 i hg hj⟩
          · exact ⟨Forest.get_mem h3, Forest.get_mem h5, e.1⟩

/-- C44 (the same paths): without named tuples, the value of the result at a leaf of the template is the leaf of the
tree at the same path, if it has one there, and nothing otherwise. -/
theorem C44_same_paths {α β} (strict align : Bool) (template : Tree β) (s : Tree α) (p : Parts α) (d : List (List Key × Tree α))
    (ht : template.Wf) (hs : s.Wf) (hn : template.NoNamed) (hn' : s.NoNamed)
    (h : trimParts strict align template s = some (p, d)) (q : List Name) (a : α) :
    p.lookup q = some a ↔ q ∈ leafPaths template ∧ ∃ ls, strPath ls = q ∧ s.at_ ls = some (.leaf a) := by
  rw [(C44_kept strict align template s p d ht hs h).2.2]
  constructor
  · rintro ⟨ks, ls, rfl, ⟨b, h1⟩, h2, h3⟩
    refine ⟨?_, ls, (corr_names h2 ht hs hn hn').symm, h3⟩
    exact mem_leafPaths (x := (ks, .leaf b)) ((template.flat_spec false (wf_distinct ht) _ _).mpr ⟨h1, rfl, fun _ => ⟨_, rfl⟩⟩)
  · rintro ⟨h1, ls, rfl, h3⟩
    obtain ⟨x, hx, e⟩ := List.mem_map.mp h1
    obtain ⟨h4, -, h5⟩ := (template.flat_spec false (wf_distinct ht) x.1 x.2).mp hx
    obtain ⟨b, hb⟩ := h5 rfl
    rw [hb] at h4
    exact ⟨x.1, ls, e, ⟨b, h4⟩, names_corr x.1 ls template s b a ht hs hn hn' h4 h3 e, h3⟩

/-- C44 (what is removed): the callback gets nodes of the tree, and every leaf of the tree is either kept or below
exactly the removed nodes. -/
theorem C44_removed {α β} (strict align : Bool) (template : Tree β) (s : Tree α) (p : Parts α) (d : List (List Key × Tree α))
    (ht : template.Wf) (hs : s.Wf) (h : trimParts strict align template s = some (p, d)) :
    (∀ x ∈ d, s.at_ x.1 = some x.2) ∧
    ∀ ls a, s.at_ ls = some (.leaf a) → ((∃ ks b, template.at_ ks = some (.leaf b) ∧ Corr template s ks ls) ↔ ¬ Below d ls) := by
  obtain ⟨-, -, -, r, hT⟩ := trimParts_spec ht hs h
  exact ⟨hT.drops, hT.cover⟩

theorem path_unique {α} {t : Tree α} (hd : t.Distinct) {ks ks' : List Key} {a b : α} (h : t.at_ ks = some (.leaf a))
    (h' : t.at_ ks' = some (.leaf b)) (e : strPath ks = strPath ks') : ks = ks' := by
  have h1 := (t.flat_spec false hd ks (.leaf a)).mpr ⟨h, rfl, fun _ => ⟨_, rfl⟩⟩
  have h2 := (t.flat_spec false hd ks' (.leaf b)).mpr ⟨h', rfl, fun _ => ⟨_, rfl⟩⟩
  have hn := t.flat_nodup false hd
  have inj : ∀ (l : List (List Key × Tree α)), (l.map fun x => strPath x.1).Nodup → ∀ x ∈ l, ∀ y ∈ l, strPath x.1 = strPath y.1 → x = y := by
    intro l
    induction l with
    | nil => intro _ x hx; simp at hx
    | cons z l ih =>
      intro hn x hx y hy e
      simp only [List.map_cons, List.nodup_cons] at hn
      rcases List.mem_cons.mp hx with h1 | h1 <;> rcases List.mem_cons.mp hy with h2 | h2
      · rw [h1, h2]
      · exact absurd (List.mem_map.mpr ⟨y, h2, by rw [← h1]; exact e.symm⟩) hn.1
      · exact absurd (List.mem_map.mpr ⟨x, h1, by rw [← h2]; exact e⟩) hn.1
      · exact ih hn.2 x h1 y h2 e
  exact congrArg (·.1) (inj _ hn _ h1 _ h2 e)

theorem at_leaf_shape {α β} {t : Tree α} {u : Tree β} (h : t.shape = u.shape) {ks : List Key} {a : α} (ha : t.at_ ks = some (.leaf a)) :
    ∃ b, u.at_ ks = some (.leaf b) := by
  have h1 := at_shape ks t
  rw [h, at_shape, ha] at h1
  obtain ⟨v, h2, h3⟩ := Option.map_eq_some_iff.mp h1
  cases v with
  | leaf b => exact ⟨b, h2⟩
  | node _ _ => cases h3

/-- C44 (strict): what is returned has the structure of the template, and all its leaves are the leaves of the tree at
the corresponding paths. -/
theorem C44_strict {α β} (align : Bool) (template : Tree β) (s t : Tree α) (d : List (List Key × Tree α))
    (ht : template.Wf) (hs : s.Wf) (h : trimFull align template s = some (t, d)) :
    t.shape = template.shape ∧ ∀ ks a, t.at_ ks = some (.leaf a) → ∃ ls, Corr template s ks ls ∧ s.at_ ls = some (.leaf a) := by
  simp only [trimFull, Option.bind_eq_bind, Option.bind_eq_some_iff, Option.pure_def, Option.some.injEq, Prod.mk.injEq, Prod.exists] at h
  obtain ⟨p, d', h1, t', h2, rfl, rfl⟩ := h
  obtain ⟨h3, h4, h5, -⟩ := trimParts_spec ht hs h1
  obtain ⟨h6, h7⟩ := (C46_full p h3).2 t' h2
  have hsh : t'.shape = template.shape := by rw [h6, h4]
  have htd : t'.Distinct := by rw [← shape_distinct, hsh, shape_distinct]; exact wf_distinct ht
  refine ⟨hsh, ?_⟩
  intro ks a hk
  obtain ⟨a', e, h8⟩ := h7 (ks, .leaf a) ((t'.flat_spec false htd _ _).mpr ⟨hk, rfl, fun _ => ⟨_, rfl⟩⟩)
  cases e
  obtain ⟨ks', ls, e, ⟨b, h9⟩, h10, h11⟩ := (h5 _ a).mp h8
  obtain ⟨b', hb'⟩ := at_leaf_shape hsh hk
  have := path_unique (wf_distinct ht) h9 hb' e
  subst this
  exact ⟨ls, h10, h11⟩

/-- C44 (missing entries are reported): if some leaf of the template has no corresponding leaf in the tree, strict
trimming fails. -/
theorem C44_missing {α β} (align : Bool) (template : Tree β) (s : Tree α) (ht : template.Wf) (hs : s.Wf) (ks : List Key) (b : β)
    (hk : template.at_ ks = some (.leaf b)) (hmiss : ∀ ls a, Corr template s ks ls → s.at_ ls ≠ some (.leaf a)) :
    trimFull align template s = none := by
  cases h : trimFull align template s with
  | none => rfl
  | some x =>
    obtain ⟨t, d⟩ := x
    obtain ⟨h1, h2⟩ := C44_strict align template s t d ht hs h
    obtain ⟨a, ha⟩ := at_leaf_shape h1.symm hk
    obtain ⟨ls, h3, h4⟩ := h2 ks a ha
    exact absurd h4 (hmiss ls a h3)

/-! ### When trimming succeeds -/

mutual
/-- The tree has the nodes of the template, of the same kinds; other nodes than sequences may have more children, and,
if not `strict`, fewer. -/
def Tree.Fits {α β} (strict : Bool) : Tree β → Tree α → Prop
  | .leaf _, s => ∃ a, s = .leaf a
  | .node kd f, s => ∃ g, s = .node kd g ∧ (kd.isSeq = true → f.keys = g.keys) ∧ f.Fits strict g
def Forest.Fits {α β} (strict : Bool) : Forest β → Forest α → Prop
  | .nil, _ => True
  | .cons k t r, g => ((strict = false ∧ ∀ l ∈ g.keys, l.str ≠ k.str) ∨ ∃ c, g.get k = some c ∧ t.Fits strict c) ∧ r.Fits strict g
end

/-- Trimming a node against a node of the same kind. -/
theorem trim_same {α β} {strict align : Bool} {kd : Kind} {f : Forest β} {g : Forest α} (ht : (Tree.node kd f).Wf) (hs : (Tree.node kd g).Wf)
    (hk : kd.isSeq = true → f.keys = g.keys) :
    ∃ look, LookOk kd kd f.keys g look ∧ ∀ r d, f.trimWith strict align look = some (r, d) →
      ((Tree.node kd f).trim strict align (.node kd g)).isSome = true := by
  have hseq : kd.isSeq = true → LookOk kd kd f.keys g (fun k => Assoc.get (zipped f g) k) ∧ ¬ g.length ≠ f.length := by
    intro h
    have hlen : g.length = f.length := by rw [Forest.length_keys, Forest.length_keys, hk h]
    exact ⟨(zipped_ok (by simp [h]) ht.2.1 hs.2.1 hlen).1, by simp [hlen]⟩
  cases kd with
  | none =>
    have h1 := wf_none ht
    have h2 := wf_none hs
    subst h1 h2
    exact ⟨fun _ => none, (nil_ok _ (fun _ => rfl)).1, fun r d _ => rfl⟩
  | dict =>
    have hr := str_keys (key := Key.raw) (key' := Key.raw) (raw_str ht.1) (raw_str hs.1)
    refine ⟨_, (keyed_ok (kd := .dict) (kd' := .dict) (fk := f.keys) (g := g) Key.raw Key.raw rfl hs.2.1 hr.1 hr.2).1, ?_⟩
    intro r d h
    simp only [Tree.trim, asDict, Option.bind_eq_bind, Option.bind_some, h]
    rfl
  | custom n =>
    have hc := str_keys (key := cleanKey) (key' := cleanKey) (fk := f.keys) (gk := g.keys) (fun k _ => rfl) (fun l _ => rfl)
    refine ⟨_, (keyed_ok (kd := .custom n) (kd' := .custom n) (fk := f.keys) (g := g) cleanKey cleanKey rfl hs.2.1 hc.1 hc.2).1, ?_⟩
    intro r d h
    simp only [Tree.trim, Option.bind_eq_bind, Option.bind_some, h]
    rfl
  | list =>
    refine ⟨_, (hseq rfl).1, ?_⟩
    intro r d h
    simp only [Tree.trim, Kind.isSeq, Bool.true_or, if_true, if_neg (hseq rfl).2, h]
    rfl
  | tuple =>
    refine ⟨_, (hseq rfl).1, ?_⟩
    intro r d h
    simp only [Tree.trim, Kind.isSeq, Bool.true_or, if_true, if_neg (hseq rfl).2, h]
    rfl
  | named n =>
    refine ⟨_, (hseq rfl).1, ?_⟩
    intro r d h
    simp only [Tree.trim, Kind.isSeq, Bool.true_or, if_true, if_neg (hseq rfl).2, h]
    rfl

mutual
theorem fits_trim {α β} {strict align : Bool} : ∀ (t : Tree β) (s : Tree α), t.Wf → s.Wf → t.Fits strict s →
    (t.trim strict align s).isSome = true
  | .leaf b, s, _, _, h => by
    obtain ⟨a, rfl⟩ := h
    rfl
  | .node kd f, s, ht, hs, h => by
    obtain ⟨g, rfl, h1, h2⟩ := h
    obtain ⟨look, h3, h4⟩ := trim_same (strict := strict) (align := align) ht hs h1
    have hlink : ∀ k ∈ f.keys, k ∈ g.keys → Link kd kd f.keys g.keys k k := by
      intro k hk hk'
      simp only [Link, Bool.and_self]
      split
      · next hq =>
        obtain ⟨i, hi⟩ := List.mem_iff_getElem?.mp hk
        exact ⟨i, hi, by rw [← h1 hq]; exact hi⟩
      · exact ⟨hk, hk', trivial⟩
    have := fitsF_trim (align := align) f g look ht.2.2 hs.2.2 h2 (fun k hk c hc => (h3 k hk k c).mpr ⟨hc, hlink k hk (Forest.get_mem hc)⟩) (by
      intro k hk hno
      cases hl : look k with
      | none => rfl
      | some x =>
        obtain ⟨l, c⟩ := x
        have h5 := ((h3 k hk l c).mp hl).2
        simp only [Link, Bool.and_self] at h5
        split at h5
        · next hq => exact absurd rfl (hno k (by rw [← h1 hq]; exact hk))
        · exact absurd h5.2.2.symm (hno l h5.2.1))
    obtain ⟨⟨r, d⟩, h6⟩ := Option.isSome_iff_exists.mp this
    exact h4 r d h6
theorem fitsF_trim {α β} {strict align : Bool} : ∀ (f : Forest β) (g : Forest α) (look : Key → Option (Key × Tree α)), f.Wf → g.Wf →
    f.Fits strict g → (∀ k ∈ f.keys, ∀ c, g.get k = some c → look k = some (k, c)) →
    (∀ k ∈ f.keys, (∀ l ∈ g.keys, l.str ≠ k.str) → look k = none) → (f.trimWith strict align look).isSome = true
  | .nil, _, _, _, _, _, _, _ => rfl
  | .cons k t r, g, look, hw, hg, h, h1, h2 => by
    have hr := fitsF_trim (align := align) r g look hw.2 hg h.2 (fun k' hk' => h1 k' (List.mem_cons_of_mem _ hk'))
      (fun k' hk' => h2 k' (List.mem_cons_of_mem _ hk'))
    obtain ⟨⟨r', d'⟩, hr'⟩ := Option.isSome_iff_exists.mp hr
    simp only [Forest.trimWith]
    rcases h.1 with ⟨h3, h4⟩ | ⟨c, h3, h4⟩
    · rw [h2 k List.mem_cons_self h4]
      subst h3
      simp only [Bool.false_eq_true, if_false, hr']
      rfl
    · rw [h1 k List.mem_cons_self c h3]
      obtain ⟨⟨t', d⟩, ht'⟩ := Option.isSome_iff_exists.mp (fits_trim (align := align) t c hw.1 (Forest.get_wf hg h3) h4)
      simp only [ht', hr']
      rfl
end

theorem trimParts_some {α β} {strict align : Bool} {template : Tree β} {s : Tree α} (ht : template.Wf) (hs : s.Wf)
    (h : (template.trim strict align s).isSome = true) : (trimParts strict align template s).isSome = true := by
  obtain ⟨⟨r, d⟩, h1⟩ := Option.isSome_iff_exists.mp h
  have hT := trim_spec template s r d ht hs h1
  have : (Parts.init template r).isSome = true := by
    rw [(C46_init template r (wf_distinct ht) hT.distinct).1]
    intro ks a hk
    obtain ⟨⟨b, hb⟩, -⟩ := (hT.leaves ks a).mp hk
    exact mem_leafPaths (x := (ks, .leaf b)) ((template.flat_spec false (wf_distinct ht) _ _).mpr ⟨hb, rfl, fun _ => ⟨_, rfl⟩⟩)
  obtain ⟨p, hp⟩ := Option.isSome_iff_exists.mp this
  simp only [trimParts, h1]
  change (Option.bind (Parts.init template r) fun p => some (p, d)).isSome = true
  rw [hp]
  rfl

theorem Forest.fits_get {α β} {strict : Bool} : ∀ {f : Forest β} {g : Forest α} {k t}, f.Fits strict g → f.get k = some t →
    (strict = false ∧ ∀ l ∈ g.keys, l.str ≠ k.str) ∨ ∃ c, g.get k = some c ∧ t.Fits strict c
  | .nil, _, _, _, _, h => by simp [Forest.get] at h
  | .cons k' t' r, g, k, t, hf, h => by
    simp only [Forest.get] at h
    split at h
    · next e => cases h; subst e; exact hf.1
    · exact Forest.fits_get hf.2 h

theorem fits_corr {α β} : ∀ (ks : List Key) (t : Tree β) (s : Tree α) (b : β), t.Fits true s → t.at_ ks = some (.leaf b) →
    ∃ a, s.at_ ks = some (.leaf a) ∧ Corr t s ks ks
  | [], t, s, b, h, hk => by
    cases t with
    | leaf b' => obtain ⟨a, rfl⟩ := h; exact ⟨a, rfl, .nil _ _⟩
    | node _ _ => cases hk
  | k :: ks, t, s, b, h, hk => by
    cases t with
    | leaf b' => cases hk
    | node kd f =>
      obtain ⟨g, rfl, h1, h2⟩ := h
      simp only [Tree.at_, Option.bind_eq_some_iff] at hk
      obtain ⟨t, h3, h4⟩ := hk
      rcases Forest.fits_get h2 h3 with ⟨h5, -⟩ | ⟨c, h5, h6⟩
      · cases h5
      · obtain ⟨a, h7, h8⟩ := fits_corr ks t c b h6 h4
        refine ⟨a, by simp only [Tree.at_, h5]; exact h7, .cons h3 h5 ?_ h8⟩
        simp only [Link, Bool.and_self]
        split
        · next hq =>
          obtain ⟨i, hi⟩ := List.mem_iff_getElem?.mp (Forest.get_mem h3)
          exact ⟨i, hi, by rw [← h1 hq]; exact hi⟩
        · exact ⟨Forest.get_mem h3, Forest.get_mem h5, trivial⟩

/-- C44 (strict trimming succeeds): if the tree has all nodes of the template, of the same kinds, and perhaps more
children of dictionaries and custom nodes, it is trimmed to the template and the leaves at its paths are kept. -/
theorem C44_fits {α β} (align : Bool) (template : Tree β) (s : Tree α) (ht : template.Wf) (hs : s.Wf) (h : template.Fits true s) :
    ∃ t d, trimFull align template s = some (t, d) ∧ t.shape = template.shape ∧
      ∀ ks a, t.at_ ks = some (.leaf a) ↔ (∃ b, template.at_ ks = some (.leaf b)) ∧ s.at_ ks = some (.leaf a) := by
  obtain ⟨⟨p, d⟩, h1⟩ := Option.isSome_iff_exists.mp (trimParts_some ht hs (fits_trim (align := align) template s ht hs h))
  obtain ⟨h2, h3, h4, -⟩ := trimParts_spec ht hs h1
  have hlook : ∀ ks b, template.at_ ks = some (.leaf b) → ∃ a, p.lookup (strPath ks) = some a ∧ s.at_ ks = some (.leaf a) := by
    intro ks b hk
    obtain ⟨a, h5, h6⟩ := fits_corr ks template s b h hk
    exact ⟨a, (h4 _ a).mpr ⟨ks, ks, rfl, ⟨b, hk⟩, h6, h5⟩, h5⟩
  have hfull : p.full.isSome = true := by
    rw [(C46_full p h2).1, h3, leafPaths_shape]
    intro q hq
    obtain ⟨x, hx, rfl⟩ := List.mem_map.mp hq
    obtain ⟨h5, -, h6⟩ := (template.flat_spec false (wf_distinct ht) x.1 x.2).mp hx
    obtain ⟨b, hb⟩ := h6 rfl
    rw [hb] at h5
    obtain ⟨a, h7, -⟩ := hlook x.1 b h5
    rw [h7]
    rfl
  obtain ⟨t, h5⟩ := Option.isSome_iff_exists.mp hfull
  obtain ⟨h6, h7⟩ := (C46_full p h2).2 t h5
  have hsh : t.shape = template.shape := by rw [h6, h3]
  have htd : t.Distinct := by rw [← shape_distinct, hsh, shape_distinct]; exact wf_distinct ht
  have hone : ∀ ks a, t.at_ ks = some (.leaf a) → (∃ b, template.at_ ks = some (.leaf b)) ∧ s.at_ ks = some (.leaf a) := by
    intro ks a hk
    obtain ⟨b, hb⟩ := at_leaf_shape hsh hk
    obtain ⟨a', h8, h9⟩ := hlook ks b hb
    obtain ⟨a'', e, h10⟩ := h7 (ks, .leaf a) ((t.flat_spec false htd _ _).mpr ⟨hk, rfl, fun _ => ⟨_, rfl⟩⟩)
    cases e
    rw [h8] at h10
    cases h10
    exact ⟨⟨b, hb⟩, h9⟩
  refine ⟨t, d, by simp only [trimFull, h1, Option.bind_eq_bind, Option.bind_some, h5]; rfl, hsh, ?_⟩
  intro ks a
  refine ⟨hone ks a, ?_⟩
  rintro ⟨⟨b, hb⟩, h8⟩
  obtain ⟨a', ha'⟩ := at_leaf_shape hsh.symm hb
  have := (hone ks a' ha').2
  rw [h8] at this
  cases this
  exact ha'

/-- C44 (trimming that is not strict succeeds): children of dictionaries and custom nodes may also be missing. -/
theorem C44_fits_weak {α β} (align : Bool) (template : Tree β) (s : Tree α) (ht : template.Wf) (hs : s.Wf) (h : template.Fits false s) :
    ∃ p d, trimParts false align template s = some (p, d) ∧ p.template = template.shape := by
  obtain ⟨⟨p, d⟩, h1⟩ := Option.isSome_iff_exists.mp (trimParts_some ht hs (fits_trim (align := align) template s ht hs h))
  exact ⟨p, d, h1, (trimParts_spec ht hs h1).2.1⟩

/-! ### Findings -/

/-- `P(x, y)`. -/
def namedTree {α} (ty : Name) (l : List (Name × Tree α)) : Tree α := .node (.named ty) (.ofList (l.map fun (n, t) => (.attr n, t)))

/-- C44 (a finding): a named tuple is matched by position, not by name, with a named tuple of another class: with
fields `x, y` in the template and `y, x` in the tree, the value of `y` is returned as `x`. -/
theorem C44_named_by_position_fails :
    trimFull (β := Unit) false (namedTree ['P'] [(['x'], .leaf ()), (['y'], .leaf ())]) (namedTree ['Q'] [(['y'], .leaf 1), (['x'], .leaf 2)]) =
      some (namedTree ['P'] [(['x'], .leaf 1), (['y'], .leaf 2)], []) := rfl

/-- C44 (a finding): `None` stands for an empty mapping, but a named tuple of the template, if it has fields, is not
replaced by placeholders for `None`, although trimming is not strict. -/
theorem C44_named_none_fails {α β} (ty n : Name) (t : Tree β) (f : Forest β) (align : Bool) :
    trimParts false align (.node (.named ty) (.cons (.attr n) t f)) (.pyNone : Tree α) = none := by
  simp [trimParts, Tree.trim, Tree.pyNone, Kind.isSeq, Forest.length]

/-! Non-vacuity: the template `{'a': [X], 'b': {'c': X}}` and the tree `{'a': [1], 'b': {'c': 2, 'd': 3}, 'e': 4}`. -/

def exTemplate : Tree Unit := dictNode [(['a'], listNode [.leaf ()]), (['b'], dictNode [(['c'], .leaf ())])]
def exStruct : Tree Nat := dictNode [(['a'], listNode [.leaf 1]), (['b'], dictNode [(['c'], .leaf 2), (['d'], .leaf 3)]), (['e'], .leaf 4)]

example : exTemplate.Wf := by
  simp [exTemplate, dictNode, listNode, enumFrom, Forest.ofList, Tree.Wf, Forest.Wf, KeysWf, Forest.keys, SeqFrom, Key.str, Key.name, Atom.toStr]
example : exStruct.Wf := by
  simp [exStruct, dictNode, listNode, enumFrom, Forest.ofList, Tree.Wf, Forest.Wf, KeysWf, Forest.keys, SeqFrom, Key.str, Key.name, Atom.toStr]
example : exTemplate.Fits true exStruct := by
  simp [exTemplate, exStruct, dictNode, listNode, enumFrom, Forest.ofList, Tree.Fits, Forest.Fits, Forest.keys, Kind.isSeq, Forest.get]
example : exTemplate.NoNamed ∧ exStruct.NoNamed := by
  simp [exTemplate, exStruct, dictNode, listNode, enumFrom, Forest.ofList, Tree.NoNamed, Forest.NoNamed]

end Verif.Trees
