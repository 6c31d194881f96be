import Verif.Trees.Diff
import Verif.Trees.SerializeProps

/-!
# Property C43: `tree_difference` is sound and complete
-/

namespace Verif.Trees

open scoped List

/-! ### Specification -/

/-- What is at a path of the two trees agrees: nothing in both, equal leaves, or nodes of the same type. -/
def Agree {α} (eq : α → α → Bool) : Option (Tree α) → Option (Tree α) → Prop
  | none, none => True
  | some (.leaf a), some (.leaf b) => eq a b = true
  | some (.node k _), some (.node k' _) => k = k'
  | _, _ => False

/-- The trees have the same structure: they agree at every path. -/
def SameShape {α} (eq : α → α → Bool) (a b : Tree α) : Prop := ∀ p, Agree eq (a.at_ p) (b.at_ p)

/-- A report is true of the two trees at a path. -/
def Rep.TrueAt {α} (eq : α → α → Bool) (a b : Tree α) (p : List Key) : Rep α → Prop
  | .leaves x y => a.at_ p = some (.leaf x) ∧ b.at_ p = some (.leaf y) ∧ eq x y = false
  | .types x y => a.at_ p = some x ∧ b.at_ p = some y ∧
      match x, y with
      | .leaf _, .leaf _ => False
      | .node k _, .node k' _ => k ≠ k'
      | _, _ => True
  | .lens m n => m ≠ n ∧ ∃ k f g, a.at_ p = some (.node k f) ∧ b.at_ p = some (.node k g) ∧ (k = .list ∨ k = .tuple) ∧
      f.length = m ∧ g.length = n
  | .onlyL t => a.at_ p = some t ∧ b.at_ p = none
  | .onlyR t => a.at_ p = none ∧ b.at_ p = some t

/-- The keys of a node are what its type prescribes: positions for lists and tuples, the fields of a named tuple. -/
def KindOk (fields : Name → List Name) (k : Kind) (l : List Key) : Prop :=
  l.Nodup ∧ match k with
    | .list => SeqFrom Key.seq 0 l
    | .tuple => SeqFrom Key.seq 0 l
    | .named ty => l = (fields ty).map Key.attr
    | .none => l = []
    | _ => True

mutual
def Tree.Ok {α} (fields : Name → List Name) : Tree α → Prop
  | .leaf _ => True
  | .node k f => KindOk fields k f.keys ∧ f.Ok fields
def Forest.Ok {α} (fields : Name → List Name) : Forest α → Prop
  | .nil => True
  | .cons _ t r => t.Ok fields ∧ r.Ok fields
end

mutual
/-- The tree has no custom node. -/
def Tree.NoCustom {α} : Tree α → Prop
  | .leaf _ => True
  | .node k f => (∀ ty, k ≠ .custom ty) ∧ f.NoCustom
def Forest.NoCustom {α} : Forest α → Prop
  | .nil => True
  | .cons _ t r => t.NoCustom ∧ r.NoCustom
end

/-! ### Lemmas -/

theorem Forest.get_ok {α} {fields} : ∀ {f : Forest α} {k c}, f.Ok fields → f.get k = some c → c.Ok fields
  | .nil, _, _, _, h => by simp [Forest.get] at h
  | .cons k' t r, k, c, ho, h => by
    simp only [Forest.get] at h
    split at h
    · cases h; exact ho.1
    · exact Forest.get_ok ho.2 h

/-- The path goes into a child. -/
def Forest.at_ {α} (f : Forest α) (k : Key) (p : List Key) : Option (Tree α) := (f.get k).bind fun c => c.at_ p

theorem node_at {α} (kd : Kind) (f : Forest α) (k : Key) (p : List Key) : (Tree.node kd f).at_ (k :: p) = f.at_ k p := rfl

theorem sameShape_node {α} (eq : α → α → Bool) (k : Kind) (f g : Forest α) :
    SameShape eq (.node k f) (.node k g) ↔ ∀ key p, Agree eq (f.at_ key p) (g.at_ key p) := by
  constructor
  · intro h key p
    exact h (key :: p)
  · intro h p
    cases p with
    | nil => rfl
    | cons key p => exact h key p

theorem DForest.isEmpty_append {α} : ∀ (d e : DForest α), (d.append e).isEmpty = (d.isEmpty && e.isEmpty)
  | .nil, e => by simp [DForest.append, DForest.isEmpty]
  | .skip _ _, e => by simp [DForest.append, DForest.isEmpty]
  | .cons _ _ _, e => by simp [DForest.append, DForest.isEmpty]

theorem DForest.reports_append {α} : ∀ (d e : DForest α), (d.append e).reports = d.reports ++ e.reports
  | .nil, e => by simp [DForest.append, DForest.reports]
  | .skip _ r, e => by simp [DForest.append, DForest.reports, DForest.reports_append r e]
  | .cons _ _ r, e => by simp [DForest.append, DForest.reports, DForest.reports_append r e]

/-- Without the `None`s. -/
def DForest.strip {α} : DForest α → DForest α
  | .nil => .nil
  | .skip _ r => r.strip
  | .cons k d r => .cons k d r.strip

theorem DForest.strip_empty {α} : ∀ (d : DForest α), d.strip.isEmpty = d.allNone
  | .nil => rfl
  | .skip _ r => by simp [DForest.strip, DForest.allNone, DForest.strip_empty r]
  | .cons _ _ r => rfl

theorem DForest.strip_reports {α} : ∀ (d : DForest α), d.strip.reports = d.reports
  | .nil => rfl
  | .skip _ r => by simp [DForest.strip, DForest.reports, DForest.strip_reports r]
  | .cons _ _ r => by simp [DForest.strip, DForest.reports, DForest.strip_reports r]

theorem commonDiff_skip {α} (eq : α → α → Bool) (k : Key) (u : Tree α) (s : Forest α) : ∀ (r : Forest α), k ∉ r.keys →
    r.commonDiff eq (.cons k u s) = r.commonDiff eq s
  | .nil, _ => by simp [Forest.commonDiff]
  | .cons k' t r, h => by
    simp only [Forest.keys, List.mem_cons, not_or] at h
    simp only [Forest.commonDiff, Forest.get, if_neg h.1, commonDiff_skip eq k u s r h.2]

/-- Comparing element by element is comparing by key, when the keys are the same. -/
theorem zipDiff_strip {α} (eq : α → α → Bool) : ∀ (f g : Forest α), f.keys = g.keys → f.keys.Nodup →
    (f.zipDiff eq g).strip = f.commonDiff eq g
  | .nil, g, _, _ => by simp [Forest.zipDiff, Forest.commonDiff, DForest.strip]
  | .cons k t r, .nil, h, _ => by simp [Forest.keys] at h
  | .cons k t r, .cons k' u s, h, hn => by
    simp only [Forest.keys, List.cons.injEq] at h
    obtain ⟨rfl, h⟩ := h
    simp only [Forest.keys, List.nodup_cons] at hn
    simp only [Forest.zipDiff, Forest.commonDiff, Forest.get, if_true]
    have ih := zipDiff_strip eq r s h hn.2
    rw [commonDiff_skip eq k u s r hn.1]
    cases t.diff eq u with
    | none => simp [DForest.ofOpt, DForest.strip, ih]
    | some d => simp [DForest.ofOpt, DForest.strip, ih]

theorem missing_empty {α} (mk : Tree α → Rep α) (g : Forest α) : ∀ (f : Forest α),
    (missing mk g f).isEmpty = true ↔ ∀ k ∈ f.keys, k ∈ g.keys
  | .nil => by simp [missing, DForest.isEmpty, Forest.keys]
  | .cons k t r => by
    simp only [missing, Forest.keys, List.mem_cons, forall_eq_or_imp]
    cases hg : g.get k with
    | none =>
      have := Forest.get_none.mp hg
      simp [DForest.isEmpty, this]
    | some u =>
      have := Forest.get_mem hg
      simp [missing_empty mk g r, this]

theorem missing_of_keys {α} (mk : Tree α → Rep α) (f g : Forest α) (h : f.keys = g.keys) : (missing mk g f) = .nil := by
  have := (missing_empty mk g f).mpr (by simp [h])
  cases hm : missing mk g f with
  | nil => rfl
  | skip _ _ => simp [hm, DForest.isEmpty] at this
  | cons _ _ _ => simp [hm, DForest.isEmpty] at this

theorem DForest.append_nil {α} : ∀ (d : DForest α), d.append .nil = d
  | .nil => rfl
  | .skip _ r => by simp [DForest.append, DForest.append_nil r]
  | .cons _ _ r => by simp [DForest.append, DForest.append_nil r]

/-- All differences of two nodes of the same type, by key. -/
def allDiffs {α} (eq : α → α → Bool) (f g : Forest α) : DForest α :=
  ((f.commonDiff eq g).append (missing .onlyL g f)).append (missing .onlyR f g)

theorem allDiffs_of_keys {α} (eq : α → α → Bool) (f g : Forest α) (h : f.keys = g.keys) : allDiffs eq f g = f.commonDiff eq g := by
  simp [allDiffs, missing_of_keys _ f g h, missing_of_keys _ g f h.symm, DForest.append_nil]

theorem seqFrom_ext {c : Nat → Key} : ∀ (i : Nat) (l m : List Key), SeqFrom c i l → SeqFrom c i m → l.length = m.length → l = m
  | _, [], [], _, _, _ => rfl
  | _, [], _ :: _, _, _, h => by simp at h
  | _, _ :: _, [], _, _, h => by simp at h
  | i, x :: l, y :: m, h1, h2, h => by
    rw [h1.1, h2.1, seqFrom_ext (i + 1) l m h1.2 h2.2 (by simpa using h)]

/-- The three shapes of the comparison of two nodes of the same type. -/
theorem diff_node {α} {fields} (eq : α → α → Bool) (k : Kind) (f g : Forest α)
    (hf : KindOk fields k f.keys) (hg : KindOk fields k g.keys) :
    (f.length ≠ g.length ∧ (k = .list ∨ k = .tuple) ∧ (Tree.node k f).diff eq (.node k g) = some (.rep (.lens f.length g.length))) ∨
    ((Tree.node k f).diff eq (.node k g) = none ∧ (allDiffs eq f g).isEmpty = true) ∨
    ((allDiffs eq f g).isEmpty = false ∧ ∃ d, (Tree.node k f).diff eq (.node k g) = some (.node k d) ∧
      (d.reports = (allDiffs eq f g).reports ∨ ((∃ ty, k = .custom ty) ∧ d = align (allDiffs eq f g) f))) := by
  have hz : f.keys = g.keys → (f.zipDiff eq g).allNone = (allDiffs eq f g).isEmpty ∧ (f.zipDiff eq g).reports = (allDiffs eq f g).reports := by
    intro h
    rw [allDiffs_of_keys eq f g h, ← zipDiff_strip eq f g h hf.1, DForest.strip_empty, DForest.strip_reports]
    exact ⟨rfl, rfl⟩
  have hseq : SeqFrom Key.seq 0 f.keys → SeqFrom Key.seq 0 g.keys → f.length = g.length → f.keys = g.keys := by
    intro h1 h2 h
    exact seqFrom_ext 0 _ _ h1 h2 (by rw [← Forest.length_keys, ← Forest.length_keys]; exact h)
  cases k with
  | named ty =>
    obtain ⟨h1, h2⟩ := hz (by rw [hf.2, hg.2])
    cases he : (allDiffs eq f g).isEmpty with
    | true => right; left; simp [Tree.diff, h1, he]
    | false => right; right; exact ⟨rfl, _, by simp [Tree.diff, h1, he], .inl h2⟩
  | list =>
    by_cases hl : f.length = g.length
    · obtain ⟨h1, h2⟩ := hz (hseq hf.2 hg.2 hl)
      cases he : (allDiffs eq f g).isEmpty with
      | true => right; left; simp [Tree.diff, h1, he, hl]
      | false => right; right; exact ⟨rfl, _, by simp [Tree.diff, h1, he, hl], .inl h2⟩
    · left; exact ⟨hl, .inl rfl, by simp [Tree.diff, hl]⟩
  | tuple =>
    by_cases hl : f.length = g.length
    · obtain ⟨h1, h2⟩ := hz (hseq hf.2 hg.2 hl)
      cases he : (allDiffs eq f g).isEmpty with
      | true => right; left; simp [Tree.diff, h1, he, hl]
      | false => right; right; exact ⟨rfl, _, by simp [Tree.diff, h1, he, hl], .inl h2⟩
    · left; exact ⟨hl, .inr rfl, by simp [Tree.diff, hl]⟩
  | dict =>
    cases he : (allDiffs eq f g).isEmpty with
    | true => right; left; have := he; simp only [allDiffs] at this; simp [Tree.diff, this]
    | false =>
      right; right
      refine ⟨rfl, allDiffs eq f g, ?_, .inl rfl⟩
      have := he; simp only [allDiffs] at this
      simp [Tree.diff, this, allDiffs]
  | none =>
    have h1 : f.keys = [] := hf.2
    have h2 : g.keys = [] := hg.2
    have hf' : f = .nil := by cases f with | nil => rfl | cons _ _ _ => simp [Forest.keys] at h1
    have hg' : g = .nil := by cases g with | nil => rfl | cons _ _ _ => simp [Forest.keys] at h2
    subst hf' hg'
    right; left
    simp [Tree.diff, Forest.commonDiff, missing, DForest.append, DForest.isEmpty, allDiffs]
  | custom ty =>
    cases he : (allDiffs eq f g).isEmpty with
    | true => right; left; have := he; simp only [allDiffs] at this; simp [Tree.diff, this]
    | false =>
      right; right
      refine ⟨rfl, align (allDiffs eq f g) f, ?_, .inr ⟨⟨ty, rfl⟩, rfl⟩⟩
      have := he; simp only [allDiffs] at this
      simp [Tree.diff, this, allDiffs]

/-! ### `none` exactly for the same structure -/

theorem agree_none_left {α} {eq : α → α → Bool} {t : Option (Tree α)} (h : Agree eq none t) : t = none := by
  cases t with
  | none => rfl
  | some t => cases t <;> exact absurd h (by simp [Agree])

theorem agree_none_right {α} {eq : α → α → Bool} {t : Option (Tree α)} (h : Agree eq t none) : t = none := by
  cases t with
  | none => rfl
  | some t => cases t <;> exact absurd h (by simp [Agree])

theorem allDiffs_empty {α} (eq : α → α → Bool) (f g : Forest α) :
    (allDiffs eq f g).isEmpty = true ↔ (f.commonDiff eq g).isEmpty = true ∧ (∀ k, k ∈ f.keys ↔ k ∈ g.keys) := by
  simp only [allDiffs, DForest.isEmpty_append, Bool.and_eq_true, missing_empty]
  constructor
  · rintro ⟨⟨h1, h2⟩, h3⟩
    exact ⟨h1, fun k => ⟨h2 k, h3 k⟩⟩
  · rintro ⟨h1, h2⟩
    exact ⟨⟨h1, fun k hk => (h2 k).mp hk⟩, fun k hk => (h2 k).mpr hk⟩

theorem keys_iff_of_agree {α} {eq : α → α → Bool} {f g : Forest α} (h : ∀ key p, Agree eq (f.at_ key p) (g.at_ key p)) :
    ∀ k, k ∈ f.keys ↔ k ∈ g.keys := by
  intro k
  have := h k []
  simp only [Forest.at_, Tree.at_] at this
  have e1 : ∀ o : Option (Tree α), (o.bind fun c => some c) = o := by intro o; cases o <;> rfl
  rw [e1, e1] at this
  constructor
  · intro hk
    apply Classical.byContradiction
    intro hg
    rw [← Forest.get_none] at hg
    rw [hg] at this
    exact (Forest.get_none.mp (agree_none_right this)) hk
  · intro hk
    apply Classical.byContradiction
    intro hg
    rw [← Forest.get_none] at hg
    rw [hg] at this
    exact (Forest.get_none.mp (agree_none_left this)) hk

mutual
theorem diff_none_iff {α} {fields} (eq : α → α → Bool) : ∀ (a b : Tree α), a.Ok fields → b.Ok fields →
    (a.diff eq b = none ↔ SameShape eq a b)
  | .leaf a, .leaf b, _, _ => by
    simp only [Tree.diff]
    constructor
    · intro h
      have he : eq a b = true := by
        cases he : eq a b with
        | true => rfl
        | false => simp [he] at h
      intro p
      cases p with
      | nil => exact he
      | cons k p => trivial
    · intro h
      have : eq a b = true := h []
      simp [this]
  | .leaf a, .node k g, _, _ => by
    simp only [Tree.diff]
    constructor
    · intro h; cases h
    · intro h; exact absurd (h []) (by simp [Tree.at_, Agree])
  | .node k f, .leaf b, _, _ => by
    simp only [Tree.diff]
    constructor
    · intro h; cases h
    · intro h; exact absurd (h []) (by simp [Tree.at_, Agree])
  | .node k f, .node k' g, ha, hb => by
    by_cases hk : k = k'
    · subst hk
      have hc := commonDiff_none eq f g hb.2 ha.1.1 ha.2
      rw [sameShape_node]
      have key : (allDiffs eq f g).isEmpty = true ↔ ∀ key p, Agree eq (f.at_ key p) (g.at_ key p) := by
        rw [allDiffs_empty, hc]
        constructor
        · rintro ⟨h1, h2⟩ key p
          simp only [Forest.at_]
          cases hf : f.get key with
          | none =>
            have : g.get key = none := Forest.get_none.mpr (fun h => (Forest.get_none.mp hf) ((h2 key).mpr h))
            rw [this]; trivial
          | some c =>
            cases hg : g.get key with
            | none => exact absurd ((h2 key).mp (Forest.get_mem hf)) (Forest.get_none.mp hg)
            | some d => exact h1 key c d hf hg p
        · intro h
          refine ⟨?_, keys_iff_of_agree h⟩
          intro key c d hf hg p
          have := h key p
          simpa [Forest.at_, hf, hg] using this
      rcases diff_node eq k f g ha.1 hb.1 with ⟨h1, -, h3⟩ | ⟨h1, h2⟩ | ⟨h1, d, h2, -⟩
      · rw [h3]
        constructor
        · intro h; cases h
        · intro h
          exfalso
          apply h1
          rw [Forest.length_keys, Forest.length_keys]
          have hkk := keys_iff_of_agree h
          have : List.Perm f.keys g.keys := (List.perm_ext_iff_of_nodup ha.1.1 hb.1.1).mpr hkk
          exact this.length_eq
      · rw [h1]; simp only [true_iff]; exact key.mp h2
      · rw [h2]
        constructor
        · intro h; cases h
        · intro h
          rw [key.mpr h] at h1
          cases h1
    · simp only [Tree.diff, ne_eq, hk, not_false_eq_true, if_true]
      constructor
      · intro h; cases h
      · intro h; exact absurd (h []) hk
theorem commonDiff_none {α} {fields} (eq : α → α → Bool) : ∀ (f g : Forest α), g.Ok fields → f.keys.Nodup → f.Ok fields →
    ((f.commonDiff eq g).isEmpty = true ↔ ∀ key c d, f.get key = some c → g.get key = some d → SameShape eq c d)
  | .nil, g, _, _, _ => by simp [Forest.commonDiff, DForest.isEmpty, Forest.get]
  | .cons k t r, g, hb, hn, ha => by
    simp only [Forest.keys, List.nodup_cons] at hn
    have ih := commonDiff_none eq r g hb hn.2 ha.2
    have hrest : (∀ key c d, (Forest.cons k t r).get key = some c → g.get key = some d → SameShape eq c d) ↔
        (∀ d, g.get k = some d → SameShape eq t d) ∧ ∀ key c d, r.get key = some c → g.get key = some d → SameShape eq c d := by
      constructor
      · intro h
        refine ⟨fun d hd => h k t d (by simp [Forest.get]) hd, ?_⟩
        intro key c d hc hd
        refine h key c d ?_ hd
        have : k ≠ key := by rintro rfl; exact hn.1 (Forest.get_mem hc)
        simp [Forest.get, this, hc]
      · rintro ⟨h1, h2⟩ key c d hc hd
        simp only [Forest.get] at hc
        split at hc
        · next e => cases hc; subst e; exact h1 d hd
        · exact h2 key c d hc hd
    rw [hrest]
    simp only [Forest.commonDiff]
    cases hg : g.get k with
    | none => simp only [ih]; simp
    | some u =>
      have iht := diff_none_iff eq t u ha.1 (Forest.get_ok hb hg)
      cases hd : t.diff eq u with
      | none =>
        simp only [hd, ih]
        constructor
        · intro h; exact ⟨fun d e => by cases e; exact iht.mp hd, h⟩
        · intro h; exact h.2
      | some d =>
        simp only [hd, DForest.isEmpty, Bool.false_eq_true, false_iff]
        rintro ⟨h, -⟩
        have := iht.mpr (h u rfl)
        rw [hd] at this
        cases this
end

/-- C43 (no difference exactly for the same structure): `tree_difference` returns `None` exactly when the two trees
agree at every path: both have nothing there, equal leaves, or nodes of the same type. -/
theorem C43_none_iff {α} {fields} (eq : α → α → Bool) (a b : Tree α) (ha : a.Ok fields) (hb : b.Ok fields) :
    a.diff eq b = none ↔ SameShape eq a b := diff_none_iff eq a b ha hb

/-! ### Every report is true -/

theorem trueAt_under {α} {eq : α → α → Bool} {f g : Forest α} {kd kd' : Kind} {k : Key} {c d : Tree α} (hc : f.get k = some c)
    (hd : g.get k = some d) {p : List Key} {r : Rep α} (h : r.TrueAt eq c d p) : r.TrueAt eq (.node kd f) (.node kd' g) (k :: p) := by
  cases r <;> simpa [Rep.TrueAt, Tree.at_, hc, hd] using h

theorem missing_reports {α} (mk : Tree α → Rep α) (g : Forest α) : ∀ (f : Forest α), f.keys.Nodup → ∀ x ∈ (missing mk g f).reports,
    ∃ k t, x = ([k], mk t) ∧ f.get k = some t ∧ g.get k = none
  | .nil, _, x, h => by simp [missing, DForest.reports] at h
  | .cons k t r, hn, x, h => by
    simp only [Forest.keys, List.nodup_cons] at hn
    have lift : ∀ k' t', r.get k' = some t' → (Forest.cons k t r).get k' = some t' := by
      intro k' t' h
      have : k ≠ k' := by rintro rfl; exact hn.1 (Forest.get_mem h)
      simp [Forest.get, this, h]
    simp only [missing] at h
    split at h
    · obtain ⟨k', t', h1, h2, h3⟩ := missing_reports mk g r hn.2 x h
      exact ⟨k', t', h1, lift k' t' h2, h3⟩
    · next hg =>
      simp only [DForest.reports, DTree.reports, List.map_cons, List.map_nil, List.cons_append, List.nil_append, List.mem_cons] at h
      rcases h with rfl | h
      · exact ⟨k, t, rfl, by simp [Forest.get], by simpa using hg⟩
      · obtain ⟨k', t', h1, h2, h3⟩ := missing_reports mk g r hn.2 x h
        exact ⟨k', t', h1, lift k' t' h2, h3⟩

theorem DForest.get_reports {α} : ∀ (d : DForest α) (k : Key) (c : DTree α), d.get k = some c → ∀ x ∈ c.reports, (k :: x.1, x.2) ∈ d.reports
  | .nil, k, c, h, x, hx => by simp [DForest.get] at h
  | .skip _ r, k, c, h, x, hx => by
    simp only [DForest.get] at h
    simpa [DForest.reports] using DForest.get_reports r k c h x hx
  | .cons k' d r, k, c, h, x, hx => by
    simp only [DForest.get] at h
    simp only [DForest.reports, List.mem_append, List.mem_map]
    split at h
    · next e => cases h; subst e; exact .inl ⟨x, hx, rfl⟩
    · exact .inr (DForest.get_reports r k c h x hx)

theorem align_reports {α} (d : DForest α) : ∀ (f : Forest α), ∀ x ∈ (align d f).reports, x ∈ d.reports
  | .nil, x, h => by simp [align, DForest.reports] at h
  | .cons k t r, x, h => by
    simp only [align] at h
    cases hd : d.get k with
    | none =>
      rw [hd] at h
      exact align_reports d r x (by simpa [DForest.ofOpt, DForest.reports] using h)
    | some c =>
      rw [hd] at h
      simp only [DForest.ofOpt, DForest.reports, List.mem_append, List.mem_map] at h
      rcases h with ⟨y, hy, rfl⟩ | h
      · exact DForest.get_reports d k c hd y hy
      · exact align_reports d r x h

mutual
theorem diff_sound {α} {fields} (eq : α → α → Bool) : ∀ (a b : Tree α), a.Ok fields → b.Ok fields → ∀ d, a.diff eq b = some d →
    ∀ x ∈ d.reports, x.2.TrueAt eq a b x.1
  | .leaf a, .leaf b, _, _, d, h, x, hx => by
    simp only [Tree.diff] at h
    split at h
    · cases h
    · next he =>
      cases h
      simp only [DTree.reports, List.mem_singleton] at hx
      subst hx
      exact ⟨rfl, rfl, by simpa using he⟩
  | .leaf a, .node k g, _, _, d, h, x, hx => by
    simp only [Tree.diff, Option.some.injEq] at h
    subst h
    simp only [DTree.reports, List.mem_singleton] at hx
    subst hx
    exact ⟨rfl, rfl, trivial⟩
  | .node k f, .leaf b, _, _, d, h, x, hx => by
    simp only [Tree.diff, Option.some.injEq] at h
    subst h
    simp only [DTree.reports, List.mem_singleton] at hx
    subst hx
    exact ⟨rfl, rfl, trivial⟩
  | .node k f, .node k' g, ha, hb, d, h, x, hx => by
    by_cases hk : k = k'
    · subst hk
      have hall : ∀ x ∈ (allDiffs eq f g).reports, x.2.TrueAt eq (.node k f) (.node k g) x.1 := by
        intro x hx
        simp only [allDiffs, DForest.reports_append, List.mem_append] at hx
        rcases hx with (hx | hx) | hx
        · obtain ⟨key, p, c, u, h1, h2, h3, h4⟩ := commonDiff_sound eq f g hb.2 ha.1.1 ha.2 x hx
          rw [h1]
          exact trueAt_under h2 h3 h4
        · obtain ⟨key, t, rfl, h2, h3⟩ := missing_reports _ g f ha.1.1 x hx
          simp [Rep.TrueAt, Tree.at_, h2, h3]
        · obtain ⟨key, t, rfl, h2, h3⟩ := missing_reports _ f g hb.1.1 x hx
          simp [Rep.TrueAt, Tree.at_, h2, h3]
      rcases diff_node eq k f g ha.1 hb.1 with ⟨h1, h2, h3⟩ | ⟨h1, -⟩ | ⟨-, d', h2, h3⟩
      · rw [h3] at h
        cases h
        simp only [DTree.reports, List.mem_singleton] at hx
        subst hx
        exact ⟨h1, k, f, g, rfl, rfl, h2, rfl, rfl⟩
      · rw [h1] at h; cases h
      · rw [h2] at h
        cases h
        simp only [DTree.reports] at hx
        rcases h3 with h3 | ⟨-, h3⟩
        · rw [h3] at hx; exact hall x hx
        · rw [h3] at hx; exact hall x (align_reports _ f x hx)
    · simp only [Tree.diff, ne_eq, hk, not_false_eq_true, if_true, Option.some.injEq] at h
      subst h
      simp only [DTree.reports, List.mem_singleton] at hx
      subst hx
      exact ⟨rfl, rfl, hk⟩
theorem commonDiff_sound {α} {fields} (eq : α → α → Bool) : ∀ (f g : Forest α), g.Ok fields → f.keys.Nodup → f.Ok fields →
    ∀ x ∈ (f.commonDiff eq g).reports, ∃ key p c u, x.1 = key :: p ∧ f.get key = some c ∧ g.get key = some u ∧ x.2.TrueAt eq c u p
  | .nil, g, _, _, _, x, hx => by simp [Forest.commonDiff, DForest.reports] at hx
  | .cons k t r, g, hb, hn, ha, x, hx => by
    simp only [Forest.keys, List.nodup_cons] at hn
    have lift : x ∈ (r.commonDiff eq g).reports → ∃ key p c u, x.1 = key :: p ∧ (Forest.cons k t r).get key = some c ∧
        g.get key = some u ∧ x.2.TrueAt eq c u p := by
      intro h
      obtain ⟨key, p, c, u, h1, h2, h3, h4⟩ := commonDiff_sound eq r g hb hn.2 ha.2 x h
      refine ⟨key, p, c, u, h1, ?_, h3, h4⟩
      have : k ≠ key := by rintro rfl; exact hn.1 (Forest.get_mem h2)
      simp [Forest.get, this, h2]
    simp only [Forest.commonDiff] at hx
    cases hg : g.get k with
    | none => rw [hg] at hx; exact lift hx
    | some u =>
      rw [hg] at hx
      cases hd : t.diff eq u with
      | none => simp only [hd] at hx; exact lift hx
      | some d =>
        simp only [hd, DForest.reports, List.mem_append, List.mem_map] at hx
        rcases hx with ⟨y, hy, rfl⟩ | hx
        · exact ⟨k, y.1, t, u, rfl, by simp [Forest.get], hg, diff_sound eq t u ha.1 (Forest.get_ok hb hg) d hd y hy⟩
        · exact lift hx
end

/-- C43 (every reported difference is one): what `tree_difference` reports at a path is true of the two trees there:
unequal leaves, nodes of different types, sequences of different lengths, or a key that only one of them has. -/
theorem C43_sound {α} {fields} (eq : α → α → Bool) (a b : Tree α) (ha : a.Ok fields) (hb : b.Ok fields) (d : DTree α)
    (h : a.diff eq b = some d) : ∀ x ∈ d.reports, x.2.TrueAt eq a b x.1 := diff_sound eq a b ha hb d h

/-! ### Every difference is reported -/

theorem commonDiff_reports {α} (eq : α → α → Bool) : ∀ (f g : Forest α), f.keys.Nodup → ∀ key c u d, f.get key = some c → g.get key = some u →
    c.diff eq u = some d → ∀ x ∈ d.reports, (key :: x.1, x.2) ∈ (f.commonDiff eq g).reports
  | .nil, g, _, key, c, u, d, h, _, _, x, hx => by simp [Forest.get] at h
  | .cons k t r, g, hn, key, c, u, d, hf, hg, hd, x, hx => by
    simp only [Forest.keys, List.nodup_cons] at hn
    simp only [Forest.get] at hf
    split at hf
    · next e =>
      cases hf
      subst e
      simp only [Forest.commonDiff, hg, hd, DForest.reports, List.mem_append, List.mem_map]
      exact .inl ⟨x, hx, rfl⟩
    · have ih := commonDiff_reports eq r g hn.2 key c u d hf hg hd x hx
      simp only [Forest.commonDiff]
      cases hg' : g.get k with
      | none => exact ih
      | some u' =>
        cases hd' : t.diff eq u' with
        | none => simp only [hd']; exact ih
        | some d' => simp only [hd', DForest.reports, List.mem_append]; exact .inr ih

theorem missing_complete {α} (mk : Tree α → Rep α) (g : Forest α) : ∀ (f : Forest α) (k : Key) (t : Tree α), f.get k = some t → g.get k = none →
    ([k], mk t) ∈ (missing mk g f).reports
  | .nil, k, t, h, _ => by simp [Forest.get] at h
  | .cons k' t' r, k, t, h, hg => by
    simp only [Forest.get] at h
    simp only [missing]
    split at h
    · next e => cases h; subst e; simp [hg, DForest.reports, DTree.reports]
    · have ih := missing_complete mk g r k t h hg
      split
      · exact ih
      · simp only [DForest.reports, List.mem_append]; exact .inr ih

theorem Forest.get_noCustom {α} : ∀ {f : Forest α} {k c}, f.NoCustom → f.get k = some c → c.NoCustom
  | .nil, _, _, _, h => by simp [Forest.get] at h
  | .cons k' t r, k, c, ho, h => by
    simp only [Forest.get] at h
    split at h
    · cases h; exact ho.1
    · exact Forest.get_noCustom ho.2 h

theorem diff_complete {α} {fields} (eq : α → α → Bool) : ∀ (p : List Key) (a b : Tree α), a.Ok fields → b.Ok fields → a.NoCustom →
    ¬ Agree eq (a.at_ p) (b.at_ p) → ∃ d, a.diff eq b = some d ∧ ∃ x ∈ d.reports, x.1 <+: p
  | p, .leaf a, .leaf b, _, _, _, h => by
    cases p with
    | nil =>
      have : eq a b = false := by simpa [Tree.at_, Agree] using h
      exact ⟨_, by simp only [Tree.diff, this]; rfl, ([], .leaves a b), by simp [DTree.reports], by simp⟩
    | cons k p => exact absurd trivial h
  | p, .leaf a, .node k g, _, _, _, h => ⟨.rep (.types _ _), rfl, ([], .types _ _), List.mem_singleton.mpr rfl, List.nil_prefix⟩
  | p, .node k f, .leaf b, _, _, _, h => ⟨.rep (.types _ _), rfl, ([], .types _ _), List.mem_singleton.mpr rfl, List.nil_prefix⟩
  | p, .node k f, .node k' g, ha, hb, hc, h => by
    by_cases hk : k = k'
    · subst hk
      cases p with
      | nil => exact absurd rfl h
      | cons key p =>
        rw [node_at, node_at] at h
        have hall : ∃ x ∈ (allDiffs eq f g).reports, x.1 <+: key :: p := by
          simp only [allDiffs, DForest.reports_append, List.mem_append]
          cases hf : f.get key with
          | none =>
            cases hg : g.get key with
            | none => exact absurd (by simp [Forest.at_, hf, hg, Agree]) h
            | some u =>
              exact ⟨_, .inr (missing_complete _ f g key u hg hf), by simp⟩
          | some c =>
            cases hg : g.get key with
            | none => exact ⟨_, .inl (.inr (missing_complete _ g f key c hf hg)), by simp⟩
            | some u =>
              have h' : ¬ Agree eq (c.at_ p) (u.at_ p) := by simpa [Forest.at_, hf, hg] using h
              obtain ⟨d, h1, x, h2, h3⟩ := diff_complete eq p c u (Forest.get_ok ha.2 hf) (Forest.get_ok hb.2 hg) (Forest.get_noCustom hc.2 hf) h'
              exact ⟨_, .inl (.inl (commonDiff_reports eq f g ha.1.1 key c u d hf hg h1 x h2)), by simpa using h3⟩
        rcases diff_node eq k f g ha.1 hb.1 with ⟨h1, h2, h3⟩ | ⟨h1, h2⟩ | ⟨-, d, h2, h3⟩
        · exact ⟨_, h3, ([], .lens _ _), by simp [DTree.reports]; exact ⟨rfl, rfl⟩, List.nil_prefix⟩
        · exfalso
          rw [diff_none_iff eq _ _ ha hb] at h1
          exact h (h1 (key :: p))
        · rcases h3 with h3 | ⟨⟨ty, h3⟩, -⟩
          · exact ⟨_, h2, by simpa [DTree.reports, h3] using hall⟩
          · exact absurd h3 (hc.1 ty)
    · exact ⟨.rep (.types (.node k f) (.node k' g)), by simp [Tree.diff, hk], ([], .types _ _), List.mem_singleton.mpr rfl, List.nil_prefix⟩

/-- C43 (every difference is reported): wherever two trees without custom nodes disagree, `tree_difference` reports a
difference at that path or above it. -/
theorem C43_complete {α} {fields} (eq : α → α → Bool) (a b : Tree α) (ha : a.Ok fields) (hb : b.Ok fields) (hc : a.NoCustom)
    (p : List Key) (h : ¬ Agree eq (a.at_ p) (b.at_ p)) : ∃ d, a.diff eq b = some d ∧ ∃ x ∈ d.reports, x.1 <+: p :=
  diff_complete eq p a b ha hb hc h

/-- C43 (a tree does not differ from itself). -/
theorem C43_refl {α} {fields} (eq : α → α → Bool) (he : ∀ x, eq x x = true) (a : Tree α) (ha : a.Ok fields) : a.diff eq a = none := by
  rw [C43_none_iff eq a a ha ha]
  intro p
  cases h : a.at_ p with
  | none => trivial
  | some t => cases t with
    | leaf x => exact he x
    | node k f => rfl

/-- C43 (whether there is a difference does not depend on the order of the arguments). -/
theorem C43_symm {α} {fields} (eq : α → α → Bool) (he : ∀ x y, eq x y = eq y x) (a b : Tree α) (ha : a.Ok fields) (hb : b.Ok fields) :
    a.diff eq b = none ↔ b.diff eq a = none := by
  rw [C43_none_iff eq a b ha hb, C43_none_iff eq b a hb ha]
  have : ∀ s t : Option (Tree α), Agree eq s t → Agree eq t s := by
    intro s t h
    cases s with
    | none => rw [agree_none_left h]; trivial
    | some s => cases t with
      | none => cases agree_none_right h
      | some t => cases s <;> cases t <;> simp_all [Agree]
  exact ⟨fun h p => this _ _ (h p), fun h p => this _ _ (h p)⟩

/-- C43 (finding: a child that only the right custom node has is not reported): if the left node has no children and
the right one, of the same custom type, has some, the result is a node without any `Diff`. -/
theorem C43_custom_extra_child_fails {α} (eq : α → α → Bool) (ty : Name) (k : Key) (t : Tree α) (r : Forest α) :
    (Tree.node (.custom ty) .nil).diff eq (.node (.custom ty) (.cons k t r)) = some (.node (.custom ty) .nil) ∧
      (DTree.node (.custom ty) (.nil : DForest α)).reports = [] := by
  simp [Tree.diff, Forest.commonDiff, missing, Forest.get, DForest.append, DForest.isEmpty, align, DTree.reports, DForest.reports]

/-! Non-vacuity. -/

/-- The example of the documentation: `{'x': [1, 2, 3], 'y': 8, 'z': {'q': 4, 'r': 6}}` and
`{'x': [1, 3], 'y': 8, 'z': {'q': 5, 's': 6}}`. -/
def exA : Tree Nat := dictNode [(['x'], listNode [.leaf 1, .leaf 2, .leaf 3]), (['y'], .leaf 8), (['z'], dictNode [(['q'], .leaf 4), (['r'], .leaf 6)])]
def exB : Tree Nat := dictNode [(['x'], listNode [.leaf 1, .leaf 3]), (['y'], .leaf 8), (['z'], dictNode [(['q'], .leaf 5), (['s'], .leaf 6)])]

example : (exA.Ok fun _ => []) ∧ (exB.Ok fun _ => []) ∧ exA.NoCustom := by
  simp [exA, exB, dictNode, listNode, enumFrom, Forest.ofList, Tree.Ok, Forest.Ok, KindOk, Forest.keys, SeqFrom, Tree.NoCustom, Forest.NoCustom]
example : (exA.diff (· == ·) exB) = some (.node .dict (.cons (.dict (.str ['x'])) (.rep (.lens 3 2))
    (.cons (.dict (.str ['z'])) (.node .dict (.cons (.dict (.str ['q'])) (.rep (.leaves 4 5))
      (.cons (.dict (.str ['r'])) (.rep (.onlyL (.leaf 6))) (.cons (.dict (.str ['s'])) (.rep (.onlyR (.leaf 6))) .nil)))) .nil))) := rfl
example : ¬ Agree (· == ·) (exA.at_ [.dict (.str ['z']), .dict (.str ['q'])]) (exB.at_ [.dict (.str ['z']), .dict (.str ['q'])]) := by
  simp [exA, exB, dictNode, Forest.ofList, Tree.at_, Forest.get, Agree]

end Verif.Trees
