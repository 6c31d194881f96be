import Verif.Trees.Transform
import Verif.Trees.FlatProps
import Verif.Trees.PartsOfProps

/-!
# Properties C47 and C58: `apply_transformations`, and merging and intersecting by path
-/

namespace Verif.Trees

open Verif

/-! ### Specification -/

/-- The name of a path: its keys with `/` between. -/
def slashName (p : List Key) : Name := join ['/'] (strPath p)

/-- The tree has the leaf `v` under the name. -/
def Holds {α} (t : Tree α) (n : Name) (v : Tree α) : Prop := ∃ p a, t.at_ p = some (.leaf a) ∧ slashName p = n ∧ v = .leaf a

/-- No two leaves have the same name. -/
def NamesApart {α} (t : Tree α) : Prop := ∀ p q a b, t.at_ p = some (.leaf a) → t.at_ q = some (.leaf b) → slashName p = slashName q → p = q

/-- The transforms with their patterns, in the order of the tree. -/
def rulesOf {α} (t : Tree (Rule α)) : List (Name × Rule α) := (t.flat false).filterMap fun x => match x.2 with
  | .leaf r => some (slashName x.1, r)
  | .node _ _ => none

/-- The rule asks for the value of the new tree. -/
def Rule.Keeps {α} (dto : Bool) (r : Rule α) : Prop := r.useFallback = true ∧ dto = true

/-- The original key of a rule. -/
def Rule.source {α} (key : Name) (expand : Name → Name) (r : Rule α) : Name := match r.originalKey with
  | none => key
  | some k => expand k

/-- The value a rule gives, if `has n v` says that the original tree has `v` under `n`. -/
def Rule.Gives {α} (has : Name → Tree α → Prop) (tree : Tree α) (key : Name) (expand : Name → Name) (r : Rule α) (v : Tree α) : Prop :=
  (r.useFallback = true ∧ has key v) ∨
  (r.useFallback = false ∧ ∃ m, r.multiFn = some m ∧ v = m key tree) ∨
  (r.useFallback = false ∧ r.multiFn = none ∧ ∃ w, has (r.source key expand) w ∧ v = (r.valueFn.getD id) w)

/-- The value of a key: that of the last matching rule which does not ask for the new tree's value; if there is none, the
new tree's value if some rule matches; otherwise the original value if it exists and is the default. -/
def Gives {α} (fm : FullMatch) (has : Name → Tree α → Prop) (tree : Tree α) (dto : Bool) (rules : List (Name × Rule α)) (key : Name)
    (own v : Tree α) : Prop :=
  (∃ pre x post expand, rules = pre ++ x :: post ∧ fm x.1 key = some expand ∧ ¬ x.2.Keeps dto ∧ x.2.Gives has tree key expand v ∧
    ∀ y ∈ post, fm y.1 key ≠ none → y.2.Keeps dto) ∨
  ((∀ y ∈ rules, fm y.1 key ≠ none → y.2.Keeps dto) ∧
    ((∃ y ∈ rules, fm y.1 key ≠ none) → v = own) ∧
    ((¬ ∃ y ∈ rules, fm y.1 key ≠ none) → (dto = true ∧ has key v) ∨ (v = own ∧ ¬ (dto = true ∧ ∃ w, has key w))))

/-- The rule can be applied to the key. -/
def Rule.Fine {α} (has : Name → Tree α → Prop) (dto : Bool) (key : Name) (expand : Name → Name) (r : Rule α) : Prop :=
  if r.useFallback = true then dto = false → ∃ v, has key v
  else if r.multiFn.isSome = true then r.valueFn = none
  else ∃ v, has (r.source key expand) v

/-! ### Lemmas -/

theorem flat_leaf {α} {t : Tree α} (hd : t.Distinct) {p : List Key} {v : Tree α} (h : (p, v) ∈ t.flat false) : ∃ a, v = .leaf a ∧ t.at_ p = some (.leaf a) := by
  obtain ⟨h1, _, h3⟩ := (Tree.flat_spec false t hd p v).mp h
  obtain ⟨a, rfl⟩ := h3 rfl
  exact ⟨a, rfl, h1⟩

theorem mem_flat_leaf {α} {t : Tree α} (hd : t.Distinct) {p : List Key} {a : α} (h : t.at_ p = some (.leaf a)) : (p, .leaf a) ∈ t.flat false :=
  (Tree.flat_spec false t hd p _).mpr ⟨h, rfl, fun _ => ⟨a, rfl⟩⟩

theorem slash_nodup {α} {t : Tree α} (hd : t.Distinct) (hn : NamesApart t) : ((t.flat false).map fun x => slashName x.1).Nodup := by
  have := t.flat_nodup false hd
  simp only [List.Nodup, List.pairwise_map] at this ⊢
  refine List.Pairwise.imp_of_mem (fun {x y} hx hy hxy e => hxy ?_) this
  obtain ⟨a, _, h1⟩ := flat_leaf hd hx
  obtain ⟨b, _, h2⟩ := flat_leaf hd hy
  rw [hn _ _ a b h1 h2 e]

theorem slashFlat_eq {α} {t : Tree α} (hd : t.Distinct) (hn : NamesApart t) :
    toFlatSep ['/'] false t = (t.flat false).map fun x => (slashName x.1, x.2) := by
  simp only [toFlatSep]
  rw [toFlat_eq false t hd, List.foldl_map]
  have := foldl_put ((t.flat false).map fun x => (slashName x.1, x.2)) [] (by rw [List.map_map]; exact slash_nodup hd hn) (by simp [Assoc.keys])
  rw [List.nil_append, List.foldl_map] at this
  exact this

theorem get_slashFlat {α} {t : Tree α} (hd : t.Distinct) (hn : NamesApart t) (n : Name) (v : Tree α) :
    Assoc.get (toFlatSep ['/'] false t) n = some v ↔ Holds t n v := by
  rw [slashFlat_eq hd hn]
  constructor
  · intro h
    obtain ⟨x, hx, e⟩ := List.mem_map.mp (Assoc.mem_of_get _ _ _ h)
    cases e
    obtain ⟨a, h1, h2⟩ := flat_leaf hd hx
    exact ⟨x.1, a, h2, rfl, h1⟩
  · rintro ⟨p, a, h1, rfl, rfl⟩
    refine Assoc.get_of_mem _ ?_ _ _ (List.mem_map.mpr ⟨(p, .leaf a), mem_flat_leaf hd h1, rfl⟩)
    simp only [Assoc.keys, List.map_map]
    exact slash_nodup hd hn

theorem rules_eq {α} {t : Tree (Rule α)} (hd : t.Distinct) (hn : NamesApart t) :
    toFlatSep ['/'] false t = (rulesOf t).map fun x => (x.1, .leaf x.2) := by
  rw [slashFlat_eq hd hn, rulesOf]
  have : ∀ l : List (List Key × Tree (Rule α)), (∀ x ∈ l, ∃ a, x.2 = .leaf a) → l.map (fun x => (slashName x.1, x.2)) =
      (l.filterMap fun x => match x.2 with
        | .leaf r => some (slashName x.1, r)
        | .node _ _ => none).map fun x => (x.1, .leaf x.2) := by
    intro l
    induction l with
    | nil => intro _; rfl
    | cons x l ih =>
      intro h
      obtain ⟨p, v⟩ := x
      obtain ⟨a, rfl⟩ : ∃ a, v = .leaf a := h _ List.mem_cons_self
      simp only [List.map_cons, List.filterMap_cons]
      rw [ih (fun y hy => h y (List.mem_cons_of_mem _ hy))]
  exact this _ fun x hx => (flat_leaf hd hx).imp fun _ h => h.1

theorem apply_gives {α} {o : List (Name × Tree α)} {tree : Tree α} {dto : Bool} {key : Name} {expand : Name → Name} {r : Rule α} {v v' : Tree α}
    (h : r.apply o tree dto key expand v = some v') :
    (r.Keeps dto ∧ v' = v) ∨ (¬ r.Keeps dto ∧ r.Gives (fun n w => Assoc.get o n = some w) tree key expand v') := by
  simp only [Rule.apply] at h
  by_cases hf : r.useFallback = true
  · simp only [hf, if_true] at h
    cases dto with
    | true => simp at h; exact .inl ⟨⟨hf, rfl⟩, h.symm⟩
    | false =>
      simp at h
      exact .inr ⟨by simp [Rule.Keeps], .inl ⟨hf, h⟩⟩
  · simp only [hf, Bool.false_eq_true, if_false] at h
    have hf' : r.useFallback = false := by simpa using hf
    have hk : ¬ r.Keeps dto := by simp [Rule.Keeps, hf']
    refine .inr ⟨hk, .inr ?_⟩
    split at h
    · cases h
    · cases hm : r.multiFn with
      | some m =>
        simp only [hm, Option.some.injEq] at h
        exact .inl ⟨hf', m, rfl, h.symm⟩
      | none =>
        simp only [hm] at h
        refine .inr ⟨hf', rfl, ?_⟩
        change (match Assoc.get o (r.source key expand) with
          | none => none
          | some w => match r.valueFn with
            | none => some w
            | some f => some (f w)) = some v' at h
        cases hw : Assoc.get o (r.source key expand) with
        | none => simp [hw] at h
        | some w =>
          simp only [hw] at h
          refine ⟨w, hw, ?_⟩
          cases hv : r.valueFn with
          | none => simp [hv] at h; simp [h]
          | some f => simp [hv] at h; simp [h]

theorem apply_fine {α} {o : List (Name × Tree α)} {tree : Tree α} {dto : Bool} {key : Name} {expand : Name → Name} {r : Rule α} {v : Tree α} :
    (r.apply o tree dto key expand v).isSome = true ↔ r.Fine (fun n w => Assoc.get o n = some w) dto key expand := by
  simp only [Rule.apply, Rule.Fine]
  by_cases hf : r.useFallback = true
  · simp only [hf, if_true]
    cases dto <;> simp [Option.isSome_iff_exists]
  · simp only [hf, Bool.false_eq_true, if_false]
    cases hm : r.multiFn with
    | some m => cases hv : r.valueFn <;> simp
    | none =>
      simp only [Option.isNone_none, Bool.true_or, Bool.not_true, Bool.false_eq_true, if_false, Option.isSome_none]
      change (match Assoc.get o (r.source key expand) with
          | none => none
          | some w => match r.valueFn with
            | none => some w
            | some f => some (f w)).isSome = true ↔ _
      cases hw : Assoc.get o (r.source key expand) with
      | none => simp
      | some w => cases hv : r.valueFn <;> simp

theorem applyRules_spec {α} {fm : FullMatch} {o : List (Name × Tree α)} {tree : Tree α} {dto : Bool} {key : Name} :
    ∀ (rules : List (Name × Rule α)) (found : Bool) (v : Tree α) (f' : Bool) (v' : Tree α),
    applyRules fm o tree dto key found v (rules.map fun x => (x.1, .leaf x.2)) = some (f', v') →
    (f' = true ↔ found = true ∨ ∃ y ∈ rules, fm y.1 key ≠ none) ∧
    ((∃ pre x post expand, rules = pre ++ x :: post ∧ fm x.1 key = some expand ∧ ¬ x.2.Keeps dto ∧
        x.2.Gives (fun n w => Assoc.get o n = some w) tree key expand v' ∧ ∀ y ∈ post, fm y.1 key ≠ none → y.2.Keeps dto) ∨
      ((∀ y ∈ rules, fm y.1 key ≠ none → y.2.Keeps dto) ∧ v' = v))
  | [], found, v, f', v', h => by
    simp only [List.map_nil, applyRules, Option.some.injEq, Prod.mk.injEq] at h
    obtain ⟨rfl, rfl⟩ := h
    exact ⟨by simp, .inr ⟨by simp, rfl⟩⟩
  | (pat, r) :: rs, found, v, f', v', h => by
    simp only [List.map_cons, applyRules] at h
    cases hm : fm pat key with
    | none =>
      simp only [hm] at h
      obtain ⟨h1, h2⟩ := applyRules_spec rs found v f' v' h
      refine ⟨by rw [h1]; simp [hm], ?_⟩
      rcases h2 with ⟨pre, x, post, e, rfl, h3⟩ | ⟨h3, h4⟩
      · exact .inl ⟨(pat, r) :: pre, x, post, e, rfl, h3⟩
      · refine .inr ⟨?_, h4⟩
        intro y hy hy'
        rcases List.mem_cons.mp hy with rfl | hy
        · exact absurd hm hy'
        · exact h3 y hy hy'
    | some expand =>
      simp only [hm, Option.bind_eq_some_iff] at h
      obtain ⟨v1, h0, h⟩ := h
      obtain ⟨h1, h2⟩ := applyRules_spec rs true v1 f' v' h
      refine ⟨by rw [h1]; simp [hm], ?_⟩
      rcases h2 with ⟨pre, x, post, e, rfl, h3⟩ | ⟨h3, rfl⟩
      · exact .inl ⟨(pat, r) :: pre, x, post, e, rfl, h3⟩
      · rcases apply_gives h0 with ⟨h5, rfl⟩ | ⟨h5, h6⟩
        · refine .inr ⟨?_, rfl⟩
          intro y hy hy'
          rcases List.mem_cons.mp hy with rfl | hy
          · exact h5
          · exact h3 y hy hy'
        · exact .inl ⟨[], (pat, r), rs, expand, rfl, hm, h5, h6, h3⟩

theorem applyRules_isSome {α} {fm : FullMatch} {o : List (Name × Tree α)} {tree : Tree α} {dto : Bool} {key : Name} :
    ∀ (rules : List (Name × Rule α)) (found : Bool) (v : Tree α),
    (applyRules fm o tree dto key found v (rules.map fun x => (x.1, .leaf x.2))).isSome = true ↔
      ∀ x ∈ rules, ∀ expand, fm x.1 key = some expand → x.2.Fine (fun n w => Assoc.get o n = some w) dto key expand
  | [], found, v => by simp [applyRules]
  | (pat, r) :: rs, found, v => by
    simp only [List.map_cons, applyRules, List.forall_mem_cons]
    cases hm : fm pat key with
    | none =>
      rw [applyRules_isSome rs found v]
      simp
    | some expand =>
      have := apply_fine (o := o) (tree := tree) (dto := dto) (key := key) (expand := expand) (r := r) (v := v)
      cases h0 : r.apply o tree dto key expand v with
      | none =>
        rw [h0] at this
        simp only [h0, Option.bind_none, Option.isSome_none, Bool.false_eq_true, false_iff]
        rintro ⟨h1, _⟩
        have := this.mpr (h1 expand rfl)
        simp at this
      | some v1 =>
        rw [h0] at this
        simp only [h0, Option.bind_some]
        rw [applyRules_isSome rs true v1]
        constructor
        · intro h
          refine ⟨?_, h⟩
          intro e he
          cases he
          exact this.mp rfl
        · exact fun h => h.2

theorem gives_congr {α} {has has' : Name → Tree α → Prop} (h : ∀ n v, has n v ↔ has' n v) : has = has' := by
  funext n v
  exact propext (h n v)

theorem applyKey_gives {α} {fm : FullMatch} {o : List (Name × Tree α)} {tree : Tree α} {dto : Bool} {key : Name} {rules : List (Name × Rule α)} {own v : Tree α}
    (h : applyKey fm o tree dto (rules.map fun x => (x.1, .leaf x.2)) key own = some v) :
    Gives fm (fun n w => Assoc.get o n = some w) tree dto rules key own v := by
  simp only [applyKey, Option.map_eq_some_iff, Prod.exists] at h
  obtain ⟨f, v1, h1, h2⟩ := h
  obtain ⟨h3, h4⟩ := applyRules_spec rules false own f v1 h1
  rcases h4 with ⟨pre, x, post, e, rfl, h5, h6⟩ | ⟨h5, rfl⟩
  · have : f = true := h3.mpr (.inr ⟨x, by simp, by rw [h5]; simp⟩)
    simp only [this, if_true] at h2
    subst h2
    exact .inl ⟨pre, x, post, e, rfl, h5, h6⟩
  · refine .inr ⟨h5, ?_, ?_⟩
    · intro h6
      have : f = true := h3.mpr (.inr h6)
      simp only [this, if_true] at h2
      exact h2.symm
    · intro h6
      have hf : f = false := by
        cases f with
        | false => rfl
        | true =>
          rcases h3.mp rfl with h7 | h7
          · cases h7
          · exact absurd h7 h6
      simp only [hf, Bool.false_eq_true, if_false] at h2
      cases hk : Assoc.get o key with
      | none => simp only [hk] at h2; exact .inr ⟨h2.symm, by simp [hk]⟩
      | some w =>
        simp only [hk] at h2
        cases dto with
        | true => simp at h2; exact .inl ⟨rfl, by rw [← h2]; exact hk⟩
        | false => simp at h2; exact .inr ⟨h2.symm, by simp⟩

theorem applyKey_isSome {α} {fm : FullMatch} {o : List (Name × Tree α)} {tree : Tree α} {dto : Bool} {key : Name} {rules : List (Name × Rule α)} {own : Tree α} :
    (applyKey fm o tree dto (rules.map fun x => (x.1, .leaf x.2)) key own).isSome = true ↔
      ∀ x ∈ rules, ∀ expand, fm x.1 key = some expand → x.2.Fine (fun n w => Assoc.get o n = some w) dto key expand := by
  rw [applyKey, Option.isSome_map, applyRules_isSome]

theorem mapM_pairs {κ β} [DecidableEq κ] {F : κ → β → Option β} : ∀ (l d : List (κ × β)),
    (l.mapM fun x => (F x.1 x.2).map fun v => (x.1, v)) = some d → d.map (·.1) = l.map (·.1) ∧ ∀ x ∈ l, ∃ v, F x.1 x.2 = some v ∧ (x.1, v) ∈ d
  | [], d, h => by
    simp at h; subst h; simp
  | x :: l, d, h => by
    simp only [List.mapM_cons, Option.bind_eq_bind, Option.bind_eq_some_iff, Option.map_eq_some_iff, Option.pure_def, Option.some.injEq] at h
    obtain ⟨y, ⟨v, h1, rfl⟩, d', h2, rfl⟩ := h
    obtain ⟨h3, h4⟩ := mapM_pairs l d' h2
    refine ⟨by simp [h3], ?_⟩
    intro z hz
    rcases List.mem_cons.mp hz with e | hz
    · subst e; exact ⟨v, h1, List.mem_cons_self⟩
    · obtain ⟨w, h5, h6⟩ := h4 z hz
      exact ⟨w, h5, List.mem_cons_of_mem _ h6⟩

theorem mapM_isSome {α β} {F : α → Option β} : ∀ (l : List α), (∀ x ∈ l, (F x).isSome = true) → (l.mapM F).isSome = true
  | [], _ => rfl
  | x :: l, h => by
    obtain ⟨y, hy⟩ := Option.isSome_iff_exists.mp (h x List.mem_cons_self)
    obtain ⟨ys, hys⟩ := Option.isSome_iff_exists.mp (mapM_isSome l (fun z hz => h z (List.mem_cons_of_mem _ hz)))
    simp [List.mapM_cons, hy, hys]

mutual
theorem mapPath_isSome {α β} (g : List Key → Option (Tree β)) : ∀ (t : Tree α) (pre : List Key), (∀ x ∈ t.flat false, (g (pre ++ x.1)).isSome = true) →
    (t.mapPath false g pre).isSome = true
  | .leaf a, pre, h => by
    have := h ([], .leaf a) (by simp [Tree.flat])
    simpa [Tree.mapPath] using this
  | .node k f, pre, h => by
    have := mapPathF_isSome g f pre (by simpa [Tree.flat] using h)
    simp only [Tree.mapPath, Bool.false_and, Bool.false_eq_true, if_false, Option.isSome_map]
    exact this
theorem mapPathF_isSome {α β} (g : List Key → Option (Tree β)) : ∀ (f : Forest α) (pre : List Key), (∀ x ∈ f.flat false, (g (pre ++ x.1)).isSome = true) →
    (f.mapPath false g pre).isSome = true
  | .nil, _, _ => rfl
  | .cons k t r, pre, h => by
    simp only [Forest.flat, List.mem_append, List.mem_map] at h
    obtain ⟨t', ht'⟩ := Option.isSome_iff_exists.mp (mapPath_isSome g t (pre ++ [k]) (by
      intro x hx
      have := h (k :: x.1, x.2) (.inl ⟨x, hx, rfl⟩)
      simpa using this))
    obtain ⟨r', hr'⟩ := Option.isSome_iff_exists.mp (mapPathF_isSome g r pre (fun x hx => h x (.inr hx)))
    simp only [Forest.mapPath, ht', hr']
    rfl
end

mutual
theorem mapPath_at {α β} (g : List Key → Option (Tree β)) : ∀ (t : Tree α) (pre : List Key) (r : Tree β), t.mapPath false g pre = some r → ∀ p,
    (∀ a, t.at_ p = some (.leaf a) → r.at_ p = g (pre ++ p)) ∧
    (∀ kd f, t.at_ p = some (.node kd f) → ∃ f', r.at_ p = some (.node kd f') ∧ f'.keys = f.keys)
  | .leaf a, pre, r, h, p => by
    simp only [Tree.mapPath] at h
    cases p with
    | nil => simp [Tree.at_, h]
    | cons k p => simp [Tree.at_]
  | .node k f, pre, r, h, p => by
    simp only [Tree.mapPath, Bool.false_and, Bool.false_eq_true, if_false, Option.map_eq_some_iff] at h
    obtain ⟨f', h1, rfl⟩ := h
    obtain ⟨h2, h3⟩ := mapPathF_at g f pre f' h1
    cases p with
    | nil =>
      simp only [Tree.at_]
      refine ⟨by simp, ?_⟩
      intro kd f1 e
      cases e
      exact ⟨f', rfl, h2⟩
    | cons k' p =>
      simp only [Tree.at_]
      have := h3 k' p
      refine ⟨?_, ?_⟩
      · intro a ha
        obtain ⟨c, hc, ha⟩ := Option.bind_eq_some_iff.mp ha
        obtain ⟨c', h4, h5⟩ := this c hc
        rw [h4]
        exact h5.1 a ha
      · intro kd f1 ha
        obtain ⟨c, hc, ha⟩ := Option.bind_eq_some_iff.mp ha
        obtain ⟨c', h4, h5⟩ := this c hc
        rw [h4]
        exact h5.2 kd f1 ha
theorem mapPathF_at {α β} (g : List Key → Option (Tree β)) : ∀ (f : Forest α) (pre : List Key) (r : Forest β), f.mapPath false g pre = some r →
    r.keys = f.keys ∧ ∀ k p c, f.get k = some c → ∃ c', r.get k = some c' ∧
      (∀ a, c.at_ p = some (.leaf a) → c'.at_ p = g (pre ++ k :: p)) ∧
      (∀ kd f, c.at_ p = some (.node kd f) → ∃ f', c'.at_ p = some (.node kd f') ∧ f'.keys = f.keys)
  | .nil, pre, r, h => by
    cases h
    exact ⟨rfl, by simp [Forest.get]⟩
  | .cons k t rest, pre, r, h => by
    simp only [Forest.mapPath, Option.bind_eq_bind, Option.bind_eq_some_iff, Option.pure_def, Option.some.injEq] at h
    obtain ⟨t', h1, r', h2, rfl⟩ := h
    obtain ⟨h3, h4⟩ := mapPathF_at g rest pre r' h2
    refine ⟨by simp [Forest.keys, h3], ?_⟩
    intro k' p c hc
    simp only [Forest.get] at hc ⊢
    by_cases e : k = k'
    · subst e
      simp only [if_true, Option.some.injEq] at hc ⊢
      subst hc
      have := mapPath_at g t (pre ++ [k]) t' h1 p
      simp only [List.append_assoc, List.cons_append, List.nil_append] at this
      exact ⟨t', rfl, this⟩
    · simp only [e, if_false] at hc ⊢
      exact h4 k' p c hc
end

theorem fromSep_eq {α β} (d : List (Name × Tree β)) (t : Tree α) (hd : t.Distinct) (hn : NamesApart t) :
    fromFlatTargetSep ['/'] d t = t.mapPath false (fun p => Assoc.get d (slashName p)) [] := by
  rw [← unflatten_map]
  simp only [fromFlatTargetSep, slashFlat_eq hd hn, List.map_map, List.mapM_map]
  rfl

theorem transform_some {α} {fm : FullMatch} {dto : Bool} {original new r : Tree α} {tr : Tree (Rule α)} (hd : new.Distinct) (hn : NamesApart new)
    (hf : falsy new = false) (h : applyTransformations fm dto original tr new = some r) :
    ∃ d, new.mapPath false (fun p => Assoc.get d (slashName p)) [] = some r ∧
      ∀ p a, new.at_ p = some (.leaf a) → ∃ v, Assoc.get d (slashName p) = some v ∧
        applyKey fm (toFlatSep ['/'] false original) original dto (toFlatSep ['/'] false tr) (slashName p) (.leaf a) = some v := by
  simp only [applyTransformations, hf, Bool.false_eq_true, if_false, Option.bind_eq_some_iff] at h
  obtain ⟨d, h1, h2⟩ := h
  rw [fromSep_eq d new hd hn] at h2
  refine ⟨d, h2, ?_⟩
  intro p a ha
  obtain ⟨h3, h4⟩ := mapM_pairs (F := fun k v => applyKey fm (toFlatSep ['/'] false original) original dto (toFlatSep ['/'] false tr) k v)
    (toFlatSep ['/'] false new) d h1
  rw [slashFlat_eq hd hn] at h3 h4
  obtain ⟨v, h5, h6⟩ := h4 (slashName p, .leaf a) (List.mem_map.mpr ⟨(p, .leaf a), mem_flat_leaf hd ha, rfl⟩)
  refine ⟨v, Assoc.get_of_mem d ?_ _ _ h6, h5⟩
  have := slash_nodup hd hn
  rw [List.map_map] at h3
  simp only [Assoc.keys]
  rw [h3]
  exact this

/-! ### C47 -/

theorem falsy_false {α} {t : Tree α} (h : ∀ kd, t = .node kd .nil → ∃ n, kd = .custom n) : falsy t = false := by
  cases t with
  | leaf a => rfl
  | node kd f =>
    cases f with
    | nil =>
      obtain ⟨n, rfl⟩ := h kd rfl
      rfl
    | cons k t r => cases kd <;> rfl

/-- Every leaf of the new tree gets the value the rules give it, and the containers are those of the new tree. -/
theorem C47_values {α} (fm : FullMatch) (dto : Bool) (original new r : Tree α) (tr : Tree (Rule α))
    (hod : original.Distinct) (hon : NamesApart original) (htd : tr.Distinct) (htn : NamesApart tr) (hd : new.Distinct) (hn : NamesApart new)
    (hne : ∀ kd, new = .node kd .nil → ∃ n, kd = .custom n) (h : applyTransformations fm dto original tr new = some r) (p : List Key) :
    (∀ a, new.at_ p = some (.leaf a) → ∃ v, r.at_ p = some v ∧ Gives fm (Holds original) original dto (rulesOf tr) (slashName p) (.leaf a) v) ∧
    (∀ kd f, new.at_ p = some (.node kd f) → ∃ f', r.at_ p = some (.node kd f') ∧ f'.keys = f.keys) := by
  obtain ⟨d, h1, h2⟩ := transform_some hd hn (falsy_false hne) h
  obtain ⟨h3, h4⟩ := mapPath_at _ new [] r h1 p
  refine ⟨?_, h4⟩
  intro a ha
  obtain ⟨v, h5, h6⟩ := h2 p a ha
  refine ⟨v, by rw [h3 a ha]; exact h5, ?_⟩
  rw [rules_eq htd htn] at h6
  rw [← gives_congr (fun n v => get_slashFlat hod hon n v)]
  exact applyKey_gives h6

/-- It succeeds exactly if every matching rule can be applied: a missing original value is reported. -/
theorem C47_succeeds {α} (fm : FullMatch) (dto : Bool) (original new : Tree α) (tr : Tree (Rule α))
    (hod : original.Distinct) (hon : NamesApart original) (htd : tr.Distinct) (htn : NamesApart tr) (hd : new.Distinct) (hn : NamesApart new)
    (hne : ∀ kd, new = .node kd .nil → ∃ n, kd = .custom n) :
    (applyTransformations fm dto original tr new).isSome = true ↔
      ∀ p a, new.at_ p = some (.leaf a) → ∀ x ∈ rulesOf tr, ∀ expand, fm x.1 (slashName p) = some expand →
        x.2.Fine (Holds original) dto (slashName p) expand := by
  constructor
  · intro h p a ha
    obtain ⟨r, hr⟩ := Option.isSome_iff_exists.mp h
    obtain ⟨d, h1, h2⟩ := transform_some hd hn (falsy_false hne) hr
    obtain ⟨v, _, h6⟩ := h2 p a ha
    rw [rules_eq htd htn] at h6
    rw [← gives_congr (fun n v => get_slashFlat hod hon n v)]
    exact applyKey_isSome.mp (by rw [h6]; rfl)
  · intro h
    rw [← gives_congr (fun n v => get_slashFlat hod hon n v)] at h
    have h1 : ((toFlatSep ['/'] false new).mapM fun x => (applyKey fm (toFlatSep ['/'] false original) original dto (toFlatSep ['/'] false tr) x.1 x.2).map
        fun v => (x.1, v)).isSome = true := by
      apply mapM_isSome
      intro x hx
      rw [slashFlat_eq hd hn] at hx
      obtain ⟨y, hy, rfl⟩ := List.mem_map.mp hx
      obtain ⟨a, e, ha⟩ := flat_leaf hd hy
      rw [Option.isSome_map, rules_eq htd htn]
      exact applyKey_isSome.mpr (h y.1 a ha)
    obtain ⟨d, h2⟩ := Option.isSome_iff_exists.mp h1
    have h3 : applyTransformations fm dto original tr new = fromFlatTargetSep ['/'] d new := by
      simp only [applyTransformations, falsy_false hne, Bool.false_eq_true, if_false]
      have e : ((toFlatSep ['/'] false new).mapM fun (key, v) => (applyKey fm (toFlatSep ['/'] false original) original dto (toFlatSep ['/'] false tr) key v).map
        fun v' => (key, v')) = some d := h2
      rw [e]
      rfl
    rw [h3, fromSep_eq d new hd hn]
    apply mapPath_isSome
    intro x hx
    obtain ⟨h4, h5⟩ := mapM_pairs (F := fun k v => applyKey fm (toFlatSep ['/'] false original) original dto (toFlatSep ['/'] false tr) k v) _ d h2
    rw [List.nil_append, Option.isSome_iff_exists, ← Assoc.mem_keys_iff]
    simp only [Assoc.keys]
    rw [h4, slashFlat_eq hd hn, List.map_map]
    exact List.mem_map_of_mem (f := fun x => slashName x.1) hx

/-- An empty structure gives an empty dictionary. -/
theorem C47_empty {α} (fm : FullMatch) (dto : Bool) (original : Tree α) (tr : Tree (Rule α)) (kd : Kind) (hk : ∀ n, kd ≠ .custom n) :
    applyTransformations fm dto original tr (.node kd .nil) = some emptyDict := by
  have : falsy (.node kd .nil : Tree α) = true := by
    cases kd <;> first | rfl | exact absurd rfl (hk _)
  simp [applyTransformations, this]

/-- Without any transform and with all keys in the original tree, the result has the original values. -/
theorem C47_no_rules {α} (fm : FullMatch) (original new : Tree α) (hod : original.Distinct) (hon : NamesApart original) (hd : new.Distinct) (hn : NamesApart new)
    (hne : ∀ kd, new = .node kd .nil → ∃ n, kd = .custom n) : ∃ r, applyTransformations fm true original emptyDict new = some r ∧
      ∀ p a, new.at_ p = some (.leaf a) → ∀ q b, original.at_ q = some (.leaf b) → slashName q = slashName p → r.at_ p = some (.leaf b) := by
  have hed : (emptyDict : Tree (Rule α)).Distinct := by simp [emptyDict, Tree.Distinct, Forest.Distinct, Forest.keys]
  have hen : NamesApart (emptyDict : Tree (Rule α)) := by
    intro p q a b h
    cases p with
    | nil => simp [Tree.at_, emptyDict] at h
    | cons k p => simp [Tree.at_, emptyDict, Forest.get] at h
  have hr : rulesOf (emptyDict : Tree (Rule α)) = [] := rfl
  have h := (C47_succeeds fm true original new emptyDict hod hon hed hen hd hn hne).mpr (by rw [hr]; simp)
  obtain ⟨r, hr'⟩ := Option.isSome_iff_exists.mp h
  refine ⟨r, hr', ?_⟩
  intro p a ha q b hb e
  obtain ⟨v, h1, h2⟩ := (C47_values fm true original new r emptyDict hod hon hed hen hd hn hne hr' p).1 a ha
  rw [hr] at h2
  rcases h2 with ⟨pre, x, post, _, h3, _⟩ | ⟨_, _, h3⟩
  · simp at h3
  · rcases h3 (by simp) with ⟨_, q', b', h4, h5, rfl⟩ | ⟨_, h4⟩
    · have eq := hon q q' b b' hb h4 (by rw [e, h5])
      subst eq
      rw [hb] at h4
      cases h4
      exact h1
    · exact absurd ⟨rfl, _, q, b, hb, e, rfl⟩ h4

/-- The property fails in one case: a rule that asks for the new tree's value, although it is the last matching one,
leaves the value an earlier matching rule gave. -/
theorem C47_fallback_after_rule_fails : ∃ (fm : FullMatch) (original new : Tree Nat) (tr : Tree (Rule Nat)) (k : Key),
    rulesOf tr = [(['a'], {}), (['b'], { useFallback := true })] ∧ (∀ x ∈ rulesOf tr, x.2.valid = true ∧ fm x.1 (slashName [k]) ≠ none) ∧
    original.at_ [k] = some (.leaf 1) ∧ new.at_ [k] = some (.leaf 2) ∧
    ∃ r, applyTransformations fm true original tr new = some r ∧ r.at_ [k] = some (.leaf 1) :=
  ⟨fun _ _ => some id, dictNode [(['x'], .leaf 1)], dictNode [(['x'], .leaf 2)],
    dictNode [(['a'], .leaf {}), (['b'], .leaf { useFallback := true })], .dict (.str ['x']), rfl,
    by intro x hx
       rcases List.mem_cons.mp hx with rfl | hx
       · exact ⟨rfl, by simp⟩
       · rw [List.mem_singleton.mp hx]; exact ⟨rfl, by simp⟩,
    rfl, rfl, _, rfl, rfl⟩

/-! ### A case -/

/-- Rename `b/c` to `a1`, keep `f`, take `g` from the new tree. -/
def transformExample : Option (Tree Nat) :=
  applyTransformations (fun pat key => if pat = key then some id else none) true
    (dictNode [(['b'], dictNode [(['c'], .leaf 5)]), (['f'], .leaf 2)])
    (dictNode [(['a', '1'], .leaf { originalKey := some ['b', '/', 'c'] })])
    (dictNode [(['a', '1'], .leaf 0), (['f'], .leaf 0), (['g'], .leaf 7)])

example : transformExample = some (dictNode [(['a', '1'], .leaf 5), (['f'], .leaf 2), (['g'], .leaf 7)]) := rfl

/-- Trees whose names have no slash have distinct names. -/
theorem namesApart_of_noSlash {α} {t : Tree α} (hd : t.Distinct) (hc : t.AllNames fun n => '/' ∉ n) : NamesApart t := by
  intro p q a b hp hq e
  have h1 := mem_flat_leaf hd hp
  have h2 := mem_flat_leaf hd hq
  by_cases hp0 : p = []
  · subst hp0
    cases t with
    | leaf c =>
      cases q with
      | nil => rfl
      | cons k q => simp [Tree.at_] at hq
    | node k f => simp [Tree.at_] at hp
  · have hq0 : q ≠ [] := by
      rintro rfl
      cases t with
      | leaf c =>
        cases p with
        | nil => exact hp0 rfl
        | cons k q => simp [Tree.at_] at hp
      | node k f => simp [Tree.at_] at hq
    have s1 := split_join '/' [] (strPath p) (by simpa [strPath] using hp0) (allNames_path false t hc _ h1)
    have s2 := split_join '/' [] (strPath q) (by simpa [strPath] using hq0) (allNames_path false t hc _ h2)
    simp only [slashName] at e
    rw [e, s2] at s1
    have e' : strPath q = strPath p := Option.some.inj s1
    have key : ∀ (p q : List Key) (t : Tree α), t.Distinct → t.at_ p = some (.leaf a) → t.at_ q = some (.leaf b) → strPath q = strPath p → p = q := by
      intro p
      induction p with
      | nil => intro q t _ _ _ e; cases q with
        | nil => rfl
        | cons k q => simp [strPath] at e
      | cons k p ih =>
        intro q t hd hp hq e
        cases q with
        | nil => simp [strPath] at e
        | cons k' q =>
          cases t with
          | leaf c => simp [Tree.at_] at hp
          | node kd f =>
            simp only [strPath, List.map_cons, List.cons.injEq] at e
            simp only [Tree.at_, Option.bind_eq_some_iff] at hp hq
            obtain ⟨c, hc1, hp⟩ := hp
            obtain ⟨c', hc1', hq⟩ := hq
            have ek : k = k' := by
              have hn := hd.1
              have : ∀ (l : List Key), (l.map Key.str).Nodup → k ∈ l → k' ∈ l → k = k' := by
                intro l
                induction l with
                | nil => intro _ h; simp at h
                | cons x l ihl =>
                  intro hn h1 h2
                  simp only [List.map_cons, List.nodup_cons] at hn
                  rcases List.mem_cons.mp h1 with r1 | r1 <;> rcases List.mem_cons.mp h2 with r2 | r2
                  · rw [r1, r2]
                  · subst r1; exact absurd (by rw [← e.1]; exact List.mem_map_of_mem r2) hn.1
                  · subst r2; exact absurd (by rw [e.1]; exact List.mem_map_of_mem r1) hn.1
                  · exact ihl hn.2 r1 r2
              exact this _ hn (Forest.get_mem hc1) (Forest.get_mem hc1')
            subst ek
            rw [hc1] at hc1'
            cases hc1'
            rw [ih q c (Forest.get_distinct hd.2 hc1) hp hq e.2]
    exact key p q t hd hp hq e'

/-- The hypotheses of `C47_values` are met. -/
example : (dictNode [(['a', '1'], .leaf 0), (['f'], .leaf 0), (['g'], dictNode [(['h'], .leaf 7)])] : Tree Nat).Distinct ∧
    NamesApart (dictNode [(['a', '1'], .leaf 0), (['f'], .leaf 0), (['g'], dictNode [(['h'], .leaf 7)])] : Tree Nat) := by
  have h : (dictNode [(['a', '1'], .leaf 0), (['f'], .leaf 0), (['g'], dictNode [(['h'], .leaf 7)])] : Tree Nat).Distinct := by
    simp [dictNode, Forest.ofList, Tree.Distinct, Forest.Distinct, Forest.keys, Key.str, Key.name, Atom.toStr]
  refine ⟨h, namesApart_of_noSlash h ?_⟩
  simp [dictNode, Forest.ofList, Tree.AllNames, Forest.AllNames, Key.str, Key.name, Atom.toStr]

/-! ### C58: merging and intersecting -/

/-- The tree has the leaf `v` under the names. -/
def HoldsAt {α} (t : Tree α) (n : List Name) (v : Tree α) : Prop := ∃ p a, t.at_ p = some (.leaf a) ∧ strPath p = n ∧ v = .leaf a

/-- The path of dictionary keys. -/
def dictPath (n : List Name) : List Key := n.map fun s => .dict (.str s)

theorem get_toFlat {α} {t : Tree α} (hd : t.Distinct) (n : List Name) (v : Tree α) : Assoc.get (toFlat false t) n = some v ↔ HoldsAt t n v := by
  constructor
  · intro h
    obtain ⟨p, h1, h2, _, h3⟩ := ((C40_flat_entries false t hd n v).1).mp (Assoc.mem_of_get _ _ _ h)
    obtain ⟨a, rfl⟩ := h3 rfl
    exact ⟨p, a, h2, h1, rfl⟩
  · rintro ⟨p, a, h1, h2, rfl⟩
    exact Assoc.get_of_mem _ (C40_flat_entries false t hd n (.leaf a)).2 _ _
      (((C40_flat_entries false t hd n (.leaf a)).1).mpr ⟨p, h2, h1, rfl, fun _ => ⟨a, rfl⟩⟩)

theorem get_foldl_put' {κ β} [DecidableEq κ] : ∀ (l d : List (κ × β)), (l.map (·.1)).Nodup → ∀ k,
    Assoc.get (l.foldl (fun d x => Assoc.put d x.1 x.2) d) k = (Assoc.get l k).or (Assoc.get d k)
  | [], d, _, k => rfl
  | x :: l, d, hn, k => by
    simp only [List.map_cons, List.nodup_cons] at hn
    simp only [List.foldl_cons]
    rw [get_foldl_put' l _ hn.2, Assoc.get_put]
    obtain ⟨k', v⟩ := x
    by_cases e : k = k'
    · subst e
      have : Assoc.get l k = none := (Assoc.get_eq_none_iff l k).mpr hn.1
      rw [this]
      simp [Assoc.get]
    · have e' : ¬ k' = k := fun h => e h.symm
      simp [Assoc.get, e, e']

theorem get_foldl_ior {α} {n : List Name} : ∀ (trees : List (Tree α)) (d : List (List Name × Tree α)), (∀ t ∈ trees, t.Distinct) → ∀ v,
    Assoc.get ((trees.map (toFlat false)).foldl ior d) n = some v ↔
      (Assoc.get d n = some v ∧ ∀ t ∈ trees, ∀ w, ¬ HoldsAt t n w) ∨
      ∃ pre s post, trees = pre ++ s :: post ∧ HoldsAt s n v ∧ ∀ t ∈ post, ∀ w, ¬ HoldsAt t n w
  | [], d, _, v => by simp
  | t :: ts, d, hd, v => by
    have ht := hd t List.mem_cons_self
    simp only [List.map_cons, List.foldl_cons]
    rw [get_foldl_ior ts _ (fun s hs => hd s (List.mem_cons_of_mem _ hs)), ior, get_foldl_put' _ _ (C40_flat_entries false t ht n v).2]
    constructor
    · rintro (⟨h1, h2⟩ | ⟨pre, s, post, rfl, h⟩)
      · cases hg : Assoc.get (toFlat false t) n with
        | some w =>
          rw [hg] at h1
          cases h1
          exact .inr ⟨[], t, ts, rfl, (get_toFlat ht n v).mp hg, h2⟩
        | none =>
          rw [hg] at h1
          refine .inl ⟨h1, ?_⟩
          intro s hs w hw
          rcases List.mem_cons.mp hs with e | hs
          · subst e
            rw [(get_toFlat ht n w).mpr hw] at hg
            cases hg
          · exact h2 s hs w hw
      · exact .inr ⟨t :: pre, s, post, rfl, h⟩
    · rintro (⟨h1, h2⟩ | ⟨pre, s, post, e, h⟩)
      · refine .inl ⟨?_, fun s hs => h2 s (List.mem_cons_of_mem _ hs)⟩
        cases hg : Assoc.get (toFlat false t) n with
        | some w => exact absurd ((get_toFlat ht n w).mp hg) (h2 t List.mem_cons_self w)
        | none => exact h1
      · cases pre with
        | nil =>
          simp only [List.nil_append, List.cons.injEq] at e
          obtain ⟨rfl, rfl⟩ := e
          refine .inl ⟨?_, h.2⟩
          rw [(get_toFlat ht n v).mpr h.1]
          rfl
        | cons p pre =>
          simp only [List.cons_append, List.cons.injEq] at e
          obtain ⟨rfl, rfl⟩ := e
          exact .inr ⟨pre, s, post, rfl, h⟩

/-- Merging on a target: every leaf of the target gets the value of the last tree that has its path. -/
theorem C58_merge_target {α} (trees : List (Tree α)) (target r : Tree α) (hd : ∀ t ∈ trees, t.Distinct) (htd : target.Distinct)
    (h : mergeFlat trees (some target) = some r) (p : List Key) :
    (∀ a, target.at_ p = some (.leaf a) → ∃ v pre s post, r.at_ p = some v ∧ trees = pre ++ s :: post ∧ HoldsAt s (strPath p) v ∧
      ∀ t ∈ post, ∀ w, ¬ HoldsAt t (strPath p) w) ∧
    (∀ kd f, target.at_ p = some (.node kd f) → ∃ f', r.at_ p = some (.node kd f') ∧ f'.keys = f.keys) := by
  simp only [mergeFlat, fromFlatOpt] at h
  rw [C40_target _ target htd] at h
  obtain ⟨h1, h2⟩ := mapPath_at _ target [] r h p
  refine ⟨?_, h2⟩
  intro a ha
  have h3 := h1 a ha
  rw [List.nil_append] at h3
  have hs : ∃ v, Assoc.get ((trees.map (toFlat false)).foldl ior []) (strPath p) = some v := by
    apply Classical.byContradiction
    intro hno
    have hnone : Assoc.get ((trees.map (toFlat false)).foldl ior []) (strPath p) = none := by
      cases hg : Assoc.get ((trees.map (toFlat false)).foldl ior []) (strPath p) with
      | none => rfl
      | some v => exact absurd ⟨v, hg⟩ hno
    have hm := mem_flat_leaf htd ha
    rw [← unflatten_map] at h
    obtain ⟨vs, h4, _⟩ := Option.bind_eq_some_iff.mp h
    have : ∀ (l : List (List Key)) (vs : List (Tree α)), (l.mapM fun p => Assoc.get ((trees.map (toFlat false)).foldl ior []) (strPath p)) = some vs →
        ∀ q ∈ l, Assoc.get ((trees.map (toFlat false)).foldl ior []) (strPath q) ≠ none := by
      intro l
      induction l with
      | nil => intro _ _ q hq; simp at hq
      | cons x l ih =>
        intro vs h q hq
        simp only [List.mapM_cons, Option.bind_eq_bind, Option.bind_eq_some_iff, Option.pure_def, Option.some.injEq] at h
        obtain ⟨y, h5, ys, h6, _⟩ := h
        rcases List.mem_cons.mp hq with e | hq
        · subst e; rw [h5]; simp
        · exact ih ys h6 q hq
    exact this _ vs h4 p (List.mem_map.mpr ⟨_, hm, rfl⟩) hnone
  obtain ⟨v, hv⟩ := hs
  rw [hv] at h3
  rcases (get_foldl_ior trees [] hd v).mp hv with ⟨h4, _⟩ | ⟨pre, s, post, h4, h5, h6⟩
  · simp at h4
  · exact ⟨v, pre, s, post, h3, h4, h5, h6⟩

theorem dictPath_cons (n : Name) (p : List Name) : dictPath (n :: p) = .dict (.str n) :: dictPath p := rfl

/-- Inserting one leaf adds that leaf and nothing else. -/
theorem insertFlat_leaf {α} {a : α} : ∀ (p : List Name) (t t' : Tree α), p ≠ [] → insertFlat t p (.leaf a) = some t' →
    (∃ f, t' = .node .dict f) ∧ ∀ q b, t'.at_ q = some (.leaf b) ↔ (q = dictPath p ∧ b = a) ∨ t.at_ q = some (.leaf b)
  | [], t, t', h0, h => absurd rfl h0
  | [n], t, t', _, h => by
    cases t with
    | leaf c => simp [insertFlat] at h
    | node kd f =>
      cases kd <;> simp only [insertFlat] at h <;> try cases h
      split at h
      · cases h
      · next hg =>
        cases h
        have hg' : f.get (.dict (.str n)) = none := by simpa using hg
        refine ⟨⟨_, rfl⟩, ?_⟩
        intro q b
        cases q with
        | nil => simp [Tree.at_, dictPath]
        | cons k q =>
          simp only [Tree.at_, dictPath, List.map_cons, List.map_nil, List.cons.injEq]
          by_cases e : k = .dict (.str n)
          · subst e
            rw [Forest.put_get_self, hg']
            cases q with
            | nil => simp [Tree.at_]; exact eq_comm
            | cons k' q => simp [Tree.at_]
          · rw [Forest.put_get_ne _ _ e]
            simp [e]
  | n :: m :: p, t, t', _, h => by
    cases t with
    | leaf c => simp [insertFlat] at h
    | node kd f =>
      cases kd <;> simp only [insertFlat] at h <;> try cases h
      obtain ⟨c', h1, rfl⟩ := Option.map_eq_some_iff.mp h
      obtain ⟨h2, h3⟩ := insertFlat_leaf (m :: p) _ c' (by simp) h1
      refine ⟨⟨_, rfl⟩, ?_⟩
      intro q b
      cases q with
      | nil => simp [Tree.at_, dictPath]
      | cons k q =>
        rw [dictPath_cons]
        simp only [Tree.at_, List.cons.injEq]
        by_cases e : k = .dict (.str n)
        · subst e
          rw [Forest.put_get_self]
          simp only [Option.bind_some, h3, true_and]
          refine or_congr Iff.rfl ?_
          cases hg : f.get (.dict (.str n)) with
          | some c => simp
          | none =>
            simp only [Option.getD_none, Option.bind_none]
            cases q with
            | nil => simp [Tree.at_, emptyDict]
            | cons k q => simp [Tree.at_, emptyDict, Forest.get]
        · rw [Forest.put_get_ne _ _ e]
          simp [e]

theorem insAll_leaves {α} : ∀ (d : List (List Name × Tree α)) (t t' : Tree α), (∀ x ∈ d, x.1 ≠ [] ∧ ∃ a, x.2 = .leaf a) → insAll t d = some t' →
    ∀ q b, t'.at_ q = some (.leaf b) ↔ (∃ n, q = dictPath n ∧ (n, Tree.leaf b) ∈ d) ∨ t.at_ q = some (.leaf b)
  | [], t, t', _, h => by
    rw [insAll_nil] at h
    cases h
    simp
  | (n, v) :: d, t, t', hd, h => by
    obtain ⟨h0, a, rfl⟩ : n ≠ [] ∧ ∃ a, v = .leaf a := hd (n, v) List.mem_cons_self
    rw [insAll_cons, Option.bind_eq_some_iff] at h
    obtain ⟨t1, h1, h2⟩ := h
    intro q b
    rw [insAll_leaves d t1 t' (fun x hx => hd x (List.mem_cons_of_mem _ hx)) h2 q b, (insertFlat_leaf n t t1 h0 h1).2 q b]
    simp only [List.mem_cons, Prod.mk.injEq, Tree.leaf.injEq]
    constructor
    · rintro (⟨m, h3, h4⟩ | ⟨h3, h4⟩ | h3)
      · exact .inl ⟨m, h3, .inr h4⟩
      · exact .inl ⟨n, h3, .inl ⟨rfl, h4⟩⟩
      · exact .inr h3
    · rintro (⟨m, h3, ⟨rfl, h4⟩ | h4⟩ | h3)
      · exact .inr (.inl ⟨h3, h4⟩)
      · exact .inl ⟨m, h3, h4⟩
      · exact .inr (.inr h3)

/-- A dictionary rebuilt from a flat dictionary has exactly the leaves of the flat dictionary. -/
theorem C40_from_flat_exact {α} (d : List (List Name × Tree α)) (hn : (d.map (·.1)).Nodup) (hd : ∀ x ∈ d, ∃ a, x.2 = .leaf a) (t : Tree α)
    (h : fromFlat d = some t) (q : List Key) (b : α) :
    t.at_ q = some (.leaf b) ↔ ∃ n, q = dictPath n ∧ (n, Tree.leaf b) ∈ d := by
  simp only [fromFlat] at h
  cases hg : Assoc.get d [] with
  | some v =>
    simp only [hg] at h
    split at h
    · cases h
    · next hl =>
      cases h
      match d, hn, hd, hg, hl with
      | [(n, w)], _, hd, hg, _ =>
        obtain ⟨a, rfl⟩ : ∃ a, w = .leaf a := hd (n, w) (by simp)
        have hm := Assoc.mem_of_get _ _ _ hg
        simp only [List.mem_singleton, Prod.mk.injEq] at hm
        obtain ⟨rfl, rfl⟩ := hm
        cases q with
        | nil =>
          constructor
          · intro h
            exact ⟨[], rfl, by simp [Tree.at_] at h; simp [h]⟩
          · rintro ⟨n, _, h2⟩
            simp at h2
            simp [Tree.at_, h2.2]
        | cons k q =>
          constructor
          · intro h; simp [Tree.at_] at h
          · rintro ⟨n, h1, h2⟩
            simp only [List.mem_singleton, Prod.mk.injEq] at h2
            rw [h2.1] at h1
            simp [dictPath] at h1
      | [], _, _, hg, _ => simp at hg
      | _ :: _ :: _, _, _, _, hl => simp at hl
  | none =>
    simp only [hg] at h
    have h0 : ∀ x ∈ d, x.1 ≠ [] := by
      intro x hx e
      rw [Assoc.get_eq_none_iff] at hg
      exact hg (by rw [← e]; exact List.mem_map_of_mem hx)
    rw [insAll_leaves d emptyDict t (fun x hx => ⟨h0 x hx, hd x hx⟩) h q b]
    constructor
    · rintro (h1 | h1)
      · exact h1
      · cases q with
        | nil => simp [Tree.at_, emptyDict] at h1
        | cons k q => simp [Tree.at_, emptyDict, Forest.get] at h1
    · exact .inl

theorem ior_nodup {κ β} [DecidableEq κ] : ∀ (l d : List (κ × β)), (d.map (·.1)).Nodup → ((ior d l).map (·.1)).Nodup
  | [], d, h => h
  | x :: l, d, h => ior_nodup l (Assoc.put d x.1 x.2) (Assoc.nodup_put d x.1 x.2 h)

theorem foldl_ior_nodup {α} : ∀ (ls : List (List (List Name × Tree α))) (d : List (List Name × Tree α)), (d.map (·.1)).Nodup → ((ls.foldl ior d).map (·.1)).Nodup
  | [], _, h => h
  | l :: ls, d, h => foldl_ior_nodup ls (ior d l) (ior_nodup l d h)

/-- Merging without a target: the result is a dictionary that has, for every path of any tree, the leaf of the last tree
that has the path, and no other leaf. -/
theorem C58_merge {α} (trees : List (Tree α)) (r : Tree α) (hd : ∀ t ∈ trees, t.Distinct) (h : mergeFlat trees none = some r) (q : List Key) (b : α) :
    r.at_ q = some (.leaf b) ↔ ∃ n pre s post, q = dictPath n ∧ trees = pre ++ s :: post ∧ HoldsAt s n (.leaf b) ∧
      ∀ t ∈ post, ∀ w, ¬ HoldsAt t n w := by
  simp only [mergeFlat, fromFlatOpt] at h
  have hn := foldl_ior_nodup (trees.map (toFlat false)) [] (by simp)
  rw [C40_from_flat_exact _ hn ?_ r h q b]
  · constructor
    · rintro ⟨n, h1, h2⟩
      have h3 := Assoc.get_of_mem _ hn n _ h2
      rcases (get_foldl_ior trees [] hd _).mp h3 with ⟨h4, _⟩ | ⟨pre, s, post, h4, h5, h6⟩
      · simp at h4
      · exact ⟨n, pre, s, post, h1, h4, h5, h6⟩
    · rintro ⟨n, pre, s, post, h1, h4, h5, h6⟩
      exact ⟨n, h1, Assoc.mem_of_get _ _ _ ((get_foldl_ior trees [] hd _).mpr (.inr ⟨pre, s, post, h4, h5, h6⟩))⟩
  · intro x hx
    have h3 := Assoc.get_of_mem _ hn x.1 x.2 hx
    rcases (get_foldl_ior trees [] hd _).mp h3 with ⟨h4, _⟩ | ⟨pre, s, post, h4, ⟨p, a, _, _, h5⟩, h6⟩
    · simp at h4
    · exact ⟨a, h5⟩

/-- Intersecting: the result has exactly the paths that all trees have, with the leaves of the last tree. -/
theorem C58_intersect {α} (trees : List (Tree α)) (last r : Tree α) (hd : ∀ t ∈ trees, t.Distinct) (hl : trees.getLast? = some last)
    (h : intersectFlat trees none = some r) (q : List Key) (b : α) :
    r.at_ q = some (.leaf b) ↔ ∃ n, q = dictPath n ∧ HoldsAt last n (.leaf b) ∧ ∀ t ∈ trees, ∃ w, HoldsAt t n w := by
  simp only [intersectFlat, fromFlatOpt, hl] at h
  have hld := hd last (List.mem_of_getLast? hl)
  have hn0 := (C40_flat_entries false last hld [] (.leaf b)).2
  have hn : (((toFlat false last).filter fun x => trees.all fun t => (Assoc.get (toFlat false t) x.1).isSome).map (·.1)).Nodup :=
    (List.filter_sublist.map _).nodup hn0
  rw [C40_from_flat_exact _ hn ?_ r h q b]
  · constructor
    · rintro ⟨n, h1, h2⟩
      simp only [List.mem_filter, List.all_eq_true] at h2
      refine ⟨n, h1, (get_toFlat hld n _).mp (Assoc.get_of_mem _ hn0 n _ h2.1), ?_⟩
      intro t ht
      obtain ⟨w, hw⟩ := Option.isSome_iff_exists.mp (h2.2 t ht)
      exact ⟨w, (get_toFlat (hd t ht) n w).mp hw⟩
    · rintro ⟨n, h1, h2, h3⟩
      refine ⟨n, h1, ?_⟩
      simp only [List.mem_filter, List.all_eq_true]
      refine ⟨Assoc.mem_of_get _ _ _ ((get_toFlat hld n _).mpr h2), ?_⟩
      intro t ht
      obtain ⟨w, hw⟩ := h3 t ht
      rw [(get_toFlat (hd t ht) n w).mpr hw]
      rfl
  · intro x hx
    obtain ⟨p, a, _, _, h5⟩ := (get_toFlat hld x.1 x.2).mp (Assoc.get_of_mem _ hn0 x.1 x.2 (List.mem_filter.mp hx).1)
    exact ⟨a, h5⟩

/-- No trees: an empty dictionary and an error. -/
theorem C58_no_trees {α} : mergeFlat ([] : List (Tree α)) none = some emptyDict ∧ ∀ target, intersectFlat ([] : List (Tree α)) target = none :=
  ⟨rfl, fun _ => rfl⟩

example : mergeFlat [dictNode [(['a'], .leaf 1), (['b'], listNode [.leaf 2])], dictNode [(['a'], .leaf 3)]] none =
    some (dictNode [(['a'], .leaf 3), (['b'], dictNode [(Key.str (.seq 0), .leaf 2)])]) := rfl

example : intersectFlat [dictNode [(['a'], .leaf 1), (['b'], listNode [.leaf 2])], dictNode [(['a'], .leaf 3), (['c'], .leaf 4)]] none =
    some (dictNode [(['a'], .leaf 3)]) := by decide

end Verif.Trees
