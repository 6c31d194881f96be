import Verif.Trees.Nesting
import Verif.Trees.FlatProps

/-! C140: nesting flat parameters. -/

namespace Verif.Trees.Nesting

/-! ### Names and their parts -/

theorem splitAux_ne_nil (sep : Name) : ∀ (s : Name) (k : Nat) (acc : Name), splitAux sep k acc s ≠ [] := by
  intro s
  induction s with
  | nil => intro k acc; simp [splitAux]
  | cons c s ih =>
    intro k acc
    cases k with
    | succ k => exact ih k acc
    | zero =>
      unfold splitAux
      split
      · simp
      · exact ih 0 _

theorem join_cons (sep a : Name) (l : List Name) (h : l ≠ []) : join sep (a :: l) = a ++ sep ++ join sep l := by
  cases l with
  | nil => exact absurd rfl h
  | cons b l => rfl

theorem join_splitAux (sep : Name) (hs : sep ≠ []) : ∀ (s : Name) (k : Nat) (acc : Name), join sep (splitAux sep k acc s) = acc.reverse ++ s.drop k := by
  intro s
  induction s with
  | nil => intro k acc; simp [splitAux, join]
  | cons c s ih =>
    intro k acc
    cases k with
    | succ k => rw [splitAux, ih, List.drop_succ_cons]
    | zero =>
      unfold splitAux
      split
      · rename_i h
        rw [List.isPrefixOf_iff_prefix] at h
        obtain ⟨r, hr⟩ := h
        rw [join_cons _ _ _ (splitAux_ne_nil _ _ _ _), ih]
        cases sep with
        | nil => exact absurd rfl hs
        | cons x sep =>
          simp only [List.cons_append, List.cons.injEq] at hr
          obtain ⟨rfl, rfl⟩ := hr
          simp
      · rw [ih]; simp

/-- C140: the parts of a name, joined by the separator, are the name; so different names have different parts. -/
theorem C140_parts (sep k : Name) (p : List Name) (h : split sep k = some p) : join sep p = k ∧ p ≠ [] := by
  unfold split at h
  by_cases hs : sep = []
  · rw [if_pos hs] at h; cases h
  · rw [if_neg hs] at h
    cases h
    exact ⟨by rw [join_splitAux sep hs]; rfl, splitAux_ne_nil _ _ _ _⟩

/-! ### Insertion -/

/-- The subtree at a path of names. -/
def look {α} (t : Tree α) (p : List Name) : Option (Tree α) := t.at_ (p.map fun n => .dict (.str n))

theorem look_nil {α} (t : Tree α) : look t [] = some t := by cases t <;> rfl

theorem look_cons {α} (k : Kind) (f : Forest α) (n : Name) (q : List Name) :
    look (.node k f) (n :: q) = (f.get (.dict (.str n))).bind fun c => look c q := rfl

theorem look_leaf {α} (a : α) (n : Name) (q : List Name) : look (.leaf a) (n :: q) = none := rfl

theorem look_empty {α} (n : Name) (q : List Name) : look (emptyDict : Tree α) (n :: q) = none := rfl

def AllDict {α} (t : Tree α) : Prop := ∀ q k f, look t q = some (.node k f) → k = .dict

theorem look_put {α} (k : Kind) (f : Forest α) (n m : Name) (v : Tree α) (q : List Name) :
    look (.node k (f.put (.dict (.str n)) v)) (m :: q) = if m = n then look v q else look (.node k f) (m :: q) := by
  rw [look_cons]
  by_cases h : m = n
  · subst h
    rw [Forest.put_get_self, if_pos rfl]; rfl
  · rw [if_neg h, Forest.put_get_ne _ _ (by simpa using h)]; rfl

theorem insert_spec {α} (a : α) : ∀ (p : List Name) (t t' : Tree α), p ≠ [] → insertFlat t p (.leaf a) = some t' →
    (∀ q, q ≠ [] → ((look t' q).isSome = true ↔ (look t q).isSome = true ∨ q <+: p)) ∧
    (∀ q b, look t' q = some (.leaf b) ↔ look t q = some (.leaf b) ∨ (q = p ∧ a = b)) ∧
    (AllDict t → AllDict t')
  | [], _, _, h, _ => absurd rfl h
  | [n], t, t', _, h => by
    cases t with
    | leaf x => simp [insertFlat] at h
    | node k f =>
      cases k <;> simp only [insertFlat] at h <;> try (cases h)
      by_cases hg : (f.get (.dict (.str n))).isSome = true
      · rw [if_pos hg] at h; cases h
      · rw [if_neg hg] at h
        cases h
        have hg' : f.get (.dict (.str n)) = none := by simpa using hg
        refine ⟨?_, ?_, ?_⟩
        · intro q hq
          cases q with
          | nil => exact absurd rfl hq
          | cons m q =>
            rw [look_put]
            by_cases hm : m = n
            · subst hm
              rw [if_pos rfl, look_cons, hg']
              cases q with
              | nil => simp [look_nil]
              | cons x q => simp [look_leaf, List.cons_prefix_cons]
            · rw [if_neg hm]
              simp [List.cons_prefix_cons, hm]
        · intro q b
          cases q with
          | nil => simp [look_nil]
          | cons m q =>
            rw [look_put]
            by_cases hm : m = n
            · subst hm
              rw [if_pos rfl, look_cons, hg']
              cases q with
              | nil => simp [look_nil]
              | cons x q => simp [look_leaf]
            · rw [if_neg hm]
              simp [hm]
        · intro ha q k g hq
          cases q with
          | nil => rw [look_nil] at hq; cases hq; rfl
          | cons m q =>
            rw [look_put] at hq
            by_cases hm : m = n
            · rw [if_pos hm] at hq
              cases q with
              | nil => rw [look_nil] at hq; cases hq
              | cons x q => rw [look_leaf] at hq; cases hq
            · rw [if_neg hm] at hq
              exact ha _ _ _ hq
  | n :: m :: p, t, t', _, h => by
    cases t with
    | leaf x => simp [insertFlat] at h
    | node k f =>
      cases k <;> simp only [insertFlat] at h <;> try (cases h)
      rw [Option.map_eq_some_iff] at h
      obtain ⟨c', hc, rfl⟩ := h
      obtain ⟨i1, i2, i3⟩ := insert_spec a (m :: p) _ c' (by simp) hc
      -- the child before
      have hl : ∀ q, q ≠ [] → look (Tree.node .dict f) (n :: q) = look ((f.get (.dict (.str n))).getD emptyDict) q := by
        intro q hq
        rw [look_cons]
        cases f.get (.dict (.str n)) with
        | some c => rfl
        | none =>
          cases q with
          | nil => exact absurd rfl hq
          | cons x q => simp [look_empty]
      have hnode : ∃ k g, c' = Tree.node k g := by
        cases c' with
        | node k g => exact ⟨k, g, rfl⟩
        | leaf b =>
          have := (i2 [] b).1 (look_nil _)
          rcases this with h | ⟨h, _⟩
          · rw [look_nil] at h
            simp only [Option.some.injEq] at h
            rw [h] at hc
            cases p <;> simp [insertFlat] at hc
          · cases h
      refine ⟨?_, ?_, ?_⟩
      · intro q hq
        cases q with
        | nil => exact absurd rfl hq
        | cons x q =>
          rw [look_put]
          by_cases hx : x = n
          · subst hx
            rw [if_pos rfl]
            by_cases hq' : q = []
            · subst hq'
              simp [look_nil, List.cons_prefix_cons]
            · rw [i1 q hq', hl q hq', List.cons_prefix_cons]
              simp
          · rw [if_neg hx]
            simp [List.cons_prefix_cons, hx]
      · intro q b
        cases q with
        | nil => simp [look_nil]
        | cons x q =>
          rw [look_put]
          by_cases hx : x = n
          · subst hx
            rw [if_pos rfl]
            by_cases hq' : q = []
            · subst hq'
              obtain ⟨k, g, rfl⟩ := hnode
              rw [look_nil, look_cons]
              constructor
              · intro h; cases h
              · rintro (h | ⟨h, _⟩)
                · cases hf : f.get (.dict (.str x)) with
                  | none => rw [hf] at h; cases h
                  | some c =>
                    rw [hf] at h hc
                    simp only [Option.bind_some, look_nil, Option.some.injEq] at h
                    subst h
                    cases p <;> simp [insertFlat] at hc
                · cases h
            · rw [i2 q b, hl q hq']
              simp
          · rw [if_neg hx]
            simp [hx]
      · intro ha
        have hc' : AllDict ((f.get (.dict (.str n))).getD emptyDict) := by
          intro q k g hq
          by_cases hq' : q = []
          · subst hq'
            rw [look_nil] at hq
            cases hf : f.get (.dict (.str n)) with
            | none => rw [hf] at hq; simp [emptyDict] at hq; exact hq.1.symm
            | some c =>
              rw [hf] at hq
              refine ha [n] k g ?_
              rw [look_cons, hf]
              simpa [look_nil] using hq
          · rw [← hl q hq'] at hq
            exact ha _ _ _ hq
        have i3 := i3 hc'
        intro q k g hq
        cases q with
        | nil => rw [look_nil] at hq; cases hq; rfl
        | cons x q =>
          rw [look_put] at hq
          by_cases hx : x = n
          · rw [if_pos hx] at hq
            exact i3 _ _ _ hq
          · rw [if_neg hx] at hq
            exact ha _ _ _ hq

theorem insert_ok {α} (v : Tree α) : ∀ (p : List Name) (t : Tree α), p ≠ [] → AllDict t →
    ((insertFlat t p v).isSome = true ↔ look t p = none ∧ ∀ q b, q <+: p → look t q ≠ some (.leaf b))
  | [], _, h, _ => absurd rfl h
  | [n], t, _, ha => by
    cases t with
    | leaf x =>
      simp only [insertFlat]
      constructor
      · intro h; cases h
      · rintro ⟨_, h⟩
        exact absurd (look_nil _) (h [] x (List.nil_prefix))
    | node k f =>
      have hk := ha [] k f (look_nil _)
      subst hk
      simp only [insertFlat]
      have e : look (Tree.node .dict f) [n] = f.get (.dict (.str n)) := by
        rw [look_cons]
        cases f.get (.dict (.str n)) <;> simp [look_nil]
      cases hf : f.get (.dict (.str n)) with
      | some c => rw [e, hf]; simp
      | none =>
        rw [hf] at e
        simp only [Option.isSome_none, Bool.false_eq_true, if_false, Option.isSome_some, true_iff]
        refine ⟨e, ?_⟩
        intro q b hq
        cases q with
        | nil => rw [look_nil]; simp
        | cons x q =>
          rw [List.cons_prefix_cons, List.prefix_nil] at hq
          obtain ⟨rfl, rfl⟩ := hq
          rw [e]; simp
  | n :: m :: p, t, _, ha => by
    cases t with
    | leaf x =>
      simp only [insertFlat]
      constructor
      · intro h; cases h
      · rintro ⟨_, h⟩
        exact absurd (look_nil _) (h [] x (List.nil_prefix))
    | node k f =>
      have hk := ha [] k f (look_nil _)
      subst hk
      simp only [insertFlat, Option.isSome_map]
      have hl : ∀ q, q ≠ [] → look (Tree.node .dict f) (n :: q) = look ((f.get (.dict (.str n))).getD emptyDict) q := by
        intro q hq
        rw [look_cons]
        cases f.get (.dict (.str n)) with
        | some c => rfl
        | none =>
          cases q with
          | nil => exact absurd rfl hq
          | cons x q => simp [look_empty]
      have hc' : AllDict ((f.get (.dict (.str n))).getD emptyDict) := by
        intro q k g hq
        by_cases hq' : q = []
        · subst hq'
          rw [look_nil] at hq
          cases hf : f.get (.dict (.str n)) with
          | none => rw [hf] at hq; simp [emptyDict] at hq; exact hq.1.symm
          | some c =>
            rw [hf] at hq
            refine ha [n] k g ?_
            rw [look_cons, hf]
            simpa [look_nil] using hq
        · rw [← hl q hq'] at hq
          exact ha _ _ _ hq
      rw [insert_ok v (m :: p) _ (by simp) hc', hl (m :: p) (by simp)]
      refine and_congr Iff.rfl ⟨fun h q b hq => ?_, fun h q b hq => ?_⟩
      · cases q with
        | nil => rw [look_nil]; simp
        | cons x q =>
          rw [List.cons_prefix_cons] at hq
          obtain ⟨rfl, hq⟩ := hq
          by_cases hq' : q = []
          · subst hq'
            rw [look_cons]
            have := h [] b (List.nil_prefix)
            rw [look_nil] at this
            cases hf : f.get (.dict (.str x)) with
            | none => simp
            | some c => rw [hf] at this; simpa [look_nil] using this
          · rw [hl q hq']
            exact h q b hq
      · by_cases hq' : q = []
        · subst hq'
          rw [look_nil]
          have := h [n] b (by rw [List.cons_prefix_cons]; exact ⟨rfl, List.nil_prefix⟩)
          rw [look_cons] at this
          cases hf : f.get (.dict (.str n)) with
          | none => simp [emptyDict]
          | some c => rw [hf] at this; simpa [look_nil] using this
        · rw [← hl q hq']
          exact h (n :: q) b (by rw [List.cons_prefix_cons]; exact ⟨rfl, hq⟩)

/-! ### All entries -/

def insAll' {α} (t : Tree α) (l : List (List Name × α)) : Option (Tree α) := l.foldlM (fun t x => insertFlat t x.1 (.leaf x.2)) t

theorem insAll'_spec {α} : ∀ (l : List (List Name × α)) (t : Tree α), (∀ x ∈ l, x.1 ≠ []) → AllDict t →
    ((insAll' t l).isSome = true ↔ l.Pairwise (fun x y => ¬ x.1 <+: y.1 ∧ ¬ y.1 <+: x.1) ∧
      ∀ x ∈ l, look t x.1 = none ∧ ∀ q b, q <+: x.1 → look t q ≠ some (.leaf b)) ∧
    (∀ t', insAll' t l = some t' → ∀ q b, look t' q = some (.leaf b) ↔ look t q = some (.leaf b) ∨ (q, b) ∈ l)
  | [], t, _, _ => by
    refine ⟨by simp [insAll'], ?_⟩
    intro t' h q b
    simp only [insAll', List.foldlM_nil, Option.pure_def, Option.some.injEq] at h
    subst h
    simp
  | x :: l, t, hn, ha => by
    have hx := hn x (List.mem_cons_self ..)
    have e : insAll' t (x :: l) = (insertFlat t x.1 (.leaf x.2)).bind fun t1 => insAll' t1 l := rfl
    have ok := insert_ok (.leaf x.2) x.1 t hx ha
    cases h1 : insertFlat t x.1 (.leaf x.2) with
    | none =>
      rw [h1] at ok e
      refine ⟨?_, fun t' h => by rw [e] at h; cases h⟩
      rw [e]
      constructor
      · intro h; cases h
      · rintro ⟨_, h⟩
        exact absurd (ok.2 (h x (List.mem_cons_self ..))) (by simp)
    | some t1 =>
      obtain ⟨s1, s2, s3⟩ := insert_spec x.2 x.1 t t1 hx h1
      obtain ⟨i1, i2⟩ := insAll'_spec l t1 (fun y hy => hn y (List.mem_cons_of_mem _ hy)) (s3 ha)
      rw [h1] at ok e
      have ok := ok.1 rfl
      rw [e, Option.bind_some]
      refine ⟨?_, ?_⟩
      · rw [i1, List.pairwise_cons]
        have key : ∀ y ∈ l, (look t1 y.1 = none ∧ ∀ q b, q <+: y.1 → look t1 q ≠ some (.leaf b)) ↔
            (¬ x.1 <+: y.1 ∧ ¬ y.1 <+: x.1) ∧ (look t y.1 = none ∧ ∀ q b, q <+: y.1 → look t q ≠ some (.leaf b)) := by
          intro y hy
          have hy0 := hn y (List.mem_cons_of_mem _ hy)
          have n1 : look t1 y.1 = none ↔ look t y.1 = none ∧ ¬ y.1 <+: x.1 := by
            have := s1 y.1 hy0
            rw [← Option.not_isSome_iff_eq_none, this, ← Option.not_isSome_iff_eq_none]
            exact not_or
          rw [n1]
          constructor
          · rintro ⟨⟨a1, a2⟩, a3⟩
            refine ⟨⟨fun hp => a3 x.1 x.2 hp ((s2 _ _).2 (.inr ⟨rfl, rfl⟩)), a2⟩, a1, ?_⟩
            intro q b hq hl
            exact a3 q b hq ((s2 _ _).2 (.inl hl))
          · rintro ⟨⟨a1, a2⟩, a3, a4⟩
            refine ⟨⟨a3, a2⟩, ?_⟩
            intro q b hq hl
            rcases (s2 _ _).1 hl with h | ⟨rfl, _⟩
            · exact a4 q b hq h
            · exact a1 hq
        constructor
        · rintro ⟨hp, hl⟩
          refine ⟨⟨fun y hy => ((key y hy).1 (hl y hy)).1, hp⟩, ?_⟩
          intro y hy
          rcases List.mem_cons.1 hy with rfl | hy
          · exact ok
          · exact ((key y hy).1 (hl y hy)).2
        · rintro ⟨⟨hp1, hp2⟩, hl⟩
          exact ⟨hp2, fun y hy => (key y hy).2 ⟨hp1 y hy, hl y (List.mem_cons_of_mem _ hy)⟩⟩
      · intro t' h q b
        rw [i2 t' h q b, s2 q b, List.mem_cons]
        constructor
        · rintro ((h | ⟨rfl, rfl⟩) | h)
          · exact .inl h
          · exact .inr (.inl rfl)
          · exact .inr (.inr h)
        · rintro (h | h | h)
          · exact .inl (.inl h)
          · exact .inl (.inr ⟨by rw [← h], by rw [← h]⟩)
          · exact .inr h

/-! ### Without a target -/

/-- Parameters under their names. -/
def flatOf {α} (d : List (Name × α)) : List (Name × Tree α) := d.map fun x => (x.1, .leaf x.2)

/-- Specification: the parts of a name. -/
def parts (sep k : Name) : List Name := (split sep k).getD []

theorem split_parts (sep k : Name) (h : sep ≠ []) : split sep k = some (parts sep k) := by
  simp [parts, split, h]

theorem parts_ne (sep k : Name) (h : sep ≠ []) : parts sep k ≠ [] := (C140_parts sep k _ (split_parts sep k h)).2

theorem parts_inj (sep k k' : Name) (h : sep ≠ []) (e : parts sep k = parts sep k') : k = k' := by
  rw [← (C140_parts sep k _ (split_parts sep k h)).1, e, (C140_parts sep k' _ (split_parts sep k' h)).1]

theorem loop_result {α} (sep : Name) (h : sep ≠ []) (ip : Bool) : ∀ (d : List (Name × α)) (t : Tree α) (c : List (Name × Tree α)),
    (loop sep ip t (flatOf d) c).result = insAll' t (d.map fun x => (parts sep x.1, x.2)) := by
  intro d
  induction d with
  | nil => intro t c; rfl
  | cons x d ih =>
    intro t c
    have e : insAll' t ((x :: d).map fun x => (parts sep x.1, x.2)) =
        (insertFlat t (parts sep x.1) (.leaf x.2)).bind fun t1 => insAll' t1 (d.map fun x => (parts sep x.1, x.2)) := rfl
    rw [e]
    simp only [flatOf, List.map_cons, loop, split_parts sep x.1 h, Option.bind_some]
    cases insertFlat t (parts sep x.1) (.leaf x.2) with
    | none => rfl
    | some t1 => exact ih t1 _

theorem result_eq {α} (sep : Name) (h : sep ≠ []) (ip dict : Bool) (hd : ip = true → dict = true) (d : List (Name × α)) :
    (unflatten sep ip none dict (flatOf d)).result = insAll' emptyDict (d.map fun x => (parts sep x.1, x.2)) := by
  unfold unflatten
  rw [if_neg (by cases ip <;> simp_all)]
  exact loop_result sep h ip d _ _

theorem allDict_empty {α} : AllDict (emptyDict : Tree α) := by
  intro q k f h
  cases q with
  | nil => rw [look_nil] at h; cases h; rfl
  | cons n q => rw [look_empty] at h; cases h

/-- C140: flat parameters can be nested exactly if no name has all the parts of another at its front. -/
theorem C140_accepts {α} (sep : Name) (h : sep ≠ []) (ip dict : Bool) (hd : ip = true → dict = true) (d : List (Name × α))
    (hn : (d.map (·.1)).Nodup) :
    (unflatten sep ip none dict (flatOf d)).result.isSome = true ↔
      ∀ k ∈ d.map (·.1), ∀ k' ∈ d.map (·.1), k ≠ k' → ¬ parts sep k <+: parts sep k' := by
  rw [result_eq sep h ip dict hd d, (insAll'_spec _ emptyDict (by
    intro x hx
    obtain ⟨y, _, rfl⟩ := List.mem_map.1 hx
    exact parts_ne sep y.1 h) allDict_empty).1, List.pairwise_map]
  constructor
  · rintro ⟨hp, hz⟩ k hk k' hk' hne
    clear hz
    obtain ⟨x, hx, rfl⟩ := List.mem_map.1 hk
    obtain ⟨y, hy, rfl⟩ := List.mem_map.1 hk'
    clear hn hk hk'
    induction d with
    | nil => cases hx
    | cons z d ih =>
      rw [List.pairwise_cons] at hp
      rcases List.mem_cons.1 hx with rfl | hx'
      · rcases List.mem_cons.1 hy with rfl | hy'
        · exact absurd rfl hne
        · exact (hp.1 y hy').1
      · rcases List.mem_cons.1 hy with rfl | hy'
        · exact (hp.1 x hx').2
        · exact ih hp.2 hx' hy'
  · intro hall
    refine ⟨?_, ?_⟩
    · rw [List.Nodup, List.pairwise_map] at hn
      refine hn.imp_of_mem ?_
      intro a b ha hb hab
      exact ⟨hall _ (List.mem_map_of_mem ha) _ (List.mem_map_of_mem hb) hab, hall _ (List.mem_map_of_mem hb) _ (List.mem_map_of_mem ha) (Ne.symm hab)⟩
    · intro x hx
      obtain ⟨y, _, rfl⟩ := List.mem_map.1 hx
      have h0 := parts_ne sep y.1 h
      refine ⟨?_, ?_⟩
      · cases hq : parts sep y.1 with
        | nil => exact absurd hq h0
        | cons n q => exact look_empty _ _
      · intro q b _
        cases q with
        | nil => rw [look_nil]; simp [emptyDict]
        | cons n q => rw [look_empty]; simp

/-- C140: every parameter is, in the nested tree, at the place that the parts of its name say, and there is no other parameter in it. -/
theorem C140_places {α} (sep : Name) (h : sep ≠ []) (ip dict : Bool) (hd : ip = true → dict = true) (d : List (Name × α)) (t : Tree α)
    (ht : (unflatten sep ip none dict (flatOf d)).result = some t) (p : List Name) (a : α) :
    t.at_ (p.map fun n => .dict (.str n)) = some (.leaf a) ↔ ∃ k, (k, a) ∈ d ∧ split sep k = some p := by
  rw [result_eq sep h ip dict hd d] at ht
  have := (insAll'_spec _ emptyDict (by
    intro x hx
    obtain ⟨y, _, rfl⟩ := List.mem_map.1 hx
    exact parts_ne sep y.1 h) allDict_empty).2 t ht p a
  have e : t.at_ (p.map fun n => .dict (.str n)) = look t p := rfl
  rw [e, this]
  have h0 : look (emptyDict : Tree α) p ≠ some (.leaf a) := by
    cases p with
    | nil => rw [look_nil]; simp [emptyDict]
    | cons n q => rw [look_empty]; simp
  constructor
  · rintro (h' | h')
    · exact absurd h' h0
    · obtain ⟨x, hx, e⟩ := List.mem_map.1 h'
      cases e
      exact ⟨x.1, hx, split_parts sep x.1 h⟩
  · rintro ⟨k, hk, hs⟩
    right
    rw [split_parts sep k h, Option.some.injEq] at hs
    rw [List.mem_map]
    exact ⟨(k, a), hk, by rw [hs]⟩

theorem loop_caller {α} (sep : Name) (ip : Bool) : ∀ (l : List (Name × Tree α)) (t : Tree α) (c : List (Name × Tree α)),
    (ip = false → (loop sep ip t l c).caller = c) ∧
    ((loop sep ip t l c).result.isSome = true → ip = true → (loop sep ip t l c).caller = c.filter fun x => decide (x.1 ∉ l.map (·.1))) := by
  intro l
  induction l with
  | nil =>
    intro t c
    refine ⟨fun _ => rfl, fun _ _ => ?_⟩
    exact (List.filter_eq_self.2 (by simp)).symm
  | cons x l ih =>
    intro t c
    simp only [loop]
    cases hm : (split sep x.1).bind fun p => insertFlat t p x.2 with
    | none =>
      refine ⟨?_, ?_⟩
      · rintro rfl; rfl
      · intro h; cases h
    | some t' =>
      obtain ⟨i1, i2⟩ := ih t' (if ip then Assoc.del c x.1 else c)
      refine ⟨?_, ?_⟩
      · rintro rfl; exact i1 rfl
      · intro h hi
        rw [i2 h hi]
        subst hi
        simp only [if_true, Assoc.del, List.filter_filter, List.map_cons, List.mem_cons, not_or]
        congr 1
        funext y
        by_cases h1 : y.1 = x.1 <;> by_cases h2 : y.1 ∈ l.map (·.1) <;> simp [h1, h2]

/-- C140: the caller's parameters are untouched unless the work is done in place; in place, all of them are taken. -/
theorem C140_caller {α} (sep : Name) (target : Option (Tree α)) (dict : Bool) (d : List (Name × Tree α)) :
    (unflatten sep false target dict d).caller = d ∧
    ((unflatten sep true none true d).result.isSome = true → (unflatten sep true none true d).caller = []) := by
  constructor
  · unfold unflatten
    cases target with
    | none => exact (loop_caller sep false d emptyDict d).1 rfl
    | some t => rfl
  · intro h
    have := (loop_caller sep true d emptyDict d).2 h rfl
    refine Eq.trans this ?_
    rw [List.filter_eq_nil_iff]
    intro x hx
    simp only [decide_eq_true_eq, Decidable.not_not]
    exact List.mem_map_of_mem hx

/-! ### With a target -/

theorem get_withDefaults {α} : ∀ (ft p : List (Name × Tree α)) (k : Name),
    Assoc.get (withDefaults ft p) k = (Assoc.get p k).or (Assoc.get ft k) := by
  intro ft
  induction ft with
  | nil => intro p k; simp [withDefaults]
  | cons x ft ih =>
    intro p k
    have e : withDefaults (x :: ft) p = withDefaults ft (if (Assoc.get p x.1).isSome then p else Assoc.put p x.1 x.2) := rfl
    rw [e, ih]
    have hg : Assoc.get (x :: ft) k = if x.1 = k then some x.2 else Assoc.get ft k := by
      obtain ⟨a, b⟩ := x
      by_cases h : a = k <;> simp [Assoc.get, h]
    rw [hg]
    by_cases hs : (Assoc.get p x.1).isSome = true
    · rw [if_pos hs]
      by_cases hk : x.1 = k
      · subst hk
        obtain ⟨v, hv⟩ := Option.isSome_iff_exists.1 hs
        rw [hv]; rfl
      · rw [if_neg hk]
    · rw [if_neg hs]
      have hs' : Assoc.get p x.1 = none := by simpa using hs
      by_cases hk : x.1 = k
      · subst hk
        rw [Assoc.get_put_self, hs', if_pos rfl]; rfl
      · rw [Assoc.get_put_ne _ _ (Ne.symm hk), if_neg hk]

theorem result_target {α} (sep : Name) (ip dict : Bool) (t : Tree α) (d : List (Name × Tree α)) :
    (unflatten sep ip (some t) dict d).result =
      (((toFlatSep sep false t).map (·.1)).mapM (Assoc.get (withDefaults (toFlatSep sep false t) d))).bind (Trees.unflatten t) := by
  unfold unflatten
  simp only
  split <;> rfl

theorem mapM_congr {β γ} : ∀ (l : List β) (f g : β → Option γ), (∀ x ∈ l, f x = g x) → l.mapM f = l.mapM g := by
  intro l f g h
  induction l with
  | nil => rfl
  | cons x l ih =>
    rw [List.mapM_cons, List.mapM_cons, h x (List.mem_cons_self ..), ih (fun y hy => h y (List.mem_cons_of_mem _ hy))]

/-- The names of the leaves of a target. -/
def leafNames {α} (sep : Name) (t : Tree α) : List Name := (t.flat false).map fun x => join sep (strPath x.1)

theorem toFlatSep_eq {α} (sep : Name) (t : Tree α) (hd : t.Distinct) (hn : (leafNames sep t).Nodup) :
    toFlatSep sep false t = (t.flat false).map fun x => (join sep (strPath x.1), x.2) := by
  unfold toFlatSep
  rw [toFlat_eq false t hd]
  have := foldl_put ((t.flat false).map fun x => (join sep (strPath x.1), x.2)) [] (by rw [List.map_map]; exact hn) (by simp [Assoc.keys])
  rw [List.nil_append, List.foldl_map] at this
  rw [List.foldl_map]
  exact this

/-- C140: with a target the result is the target with every leaf replaced by the parameter of its name; a leaf without one keeps its value. -/
theorem C140_target {α} (sep : Name) (ip dict : Bool) (t : Tree α) (hd : t.Distinct) (hn : (leafNames sep t).Nodup) (d : List (Name × Tree α)) :
    (unflatten sep ip (some t) dict d).result =
      t.mapPath false (fun p => (Assoc.get d (join sep (strPath p))).or (t.at_ p)) [] := by
  rw [result_target, toFlatSep_eq sep t hd hn]
  rw [← unflatten_map]
  congr 1
  simp only [List.map_map, List.mapM_map]
  have : ∀ x ∈ t.flat false, (Assoc.get (withDefaults ((t.flat false).map fun x => (join sep (strPath x.1), x.2)) d) (join sep (strPath x.1))) =
      (Assoc.get d (join sep (strPath x.1))).or (t.at_ x.1) := by
    intro x hx
    rw [get_withDefaults]
    congr 1
    have h1 : Assoc.get ((t.flat false).map fun x => (join sep (strPath x.1), x.2)) (join sep (strPath x.1)) = some x.2 :=
      Assoc.get_of_mem _ (by rw [Assoc.keys, List.map_map]; exact hn) _ _ (List.mem_map_of_mem (f := fun x => (join sep (strPath x.1), x.2)) hx)
    have h2 := ((Tree.flat_spec false t hd x.1 x.2).1 hx)
    rw [h1, h2.1]
  exact mapM_congr _ _ _ this

theorem get_dels {α} : ∀ (ks : List Name) (d : List (Name × Tree α)) (k : Name),
    Assoc.get (ks.foldl Assoc.del d) k = if k ∈ ks then none else Assoc.get d k := by
  intro ks
  induction ks with
  | nil => intro d k; simp
  | cons x ks ih =>
    intro d k
    rw [List.foldl_cons, ih, Assoc.get_del]
    by_cases h1 : k ∈ ks <;> by_cases h2 : k = x <;> simp [h1, h2]

/-- C140: in place with a target, exactly the parameters that the target names are taken from the caller's dictionary, and nothing is added. -/
theorem C140_target_caller {α} (sep : Name) (t : Tree α) (hd : t.Distinct) (hn : (leafNames sep t).Nodup) (d : List (Name × Tree α)) (k : Name) :
    Assoc.get (unflatten sep true (some t) true d).caller k = if k ∈ leafNames sep t then none else Assoc.get d k := by
  unfold unflatten
  simp only [Bool.and_self, if_true, fromTarget]
  have e : (toFlatSep sep false t).map (·.1) = leafNames sep t := by
    rw [toFlatSep_eq sep t hd hn, List.map_map]; rfl
  rw [get_dels, e]
  by_cases h : k ∈ leafNames sep t
  · rw [if_pos h, if_pos h]
  · rw [if_neg h, if_neg h, get_withDefaults]
    have : Assoc.get (toFlatSep sep false t) k = none := by
      rw [Assoc.get_eq_none_iff, Assoc.keys]
      show k ∉ (toFlatSep sep false t).map (·.1)
      rw [e]; exact h
    rw [this, Option.or_none]

/-- C140: a mapping that is not a `dict` cannot be taken apart in place without a target; with one, it is copied and left as it is. -/
theorem C140_mapping {α} (sep : Name) (t : Tree α) (d : List (Name × Tree α)) :
    (unflatten sep true none false d).result = none ∧ (unflatten sep true none false d).caller = d ∧
    (unflatten sep true (some t) false d).caller = d ∧
    (unflatten sep true (some t) false d).result = (unflatten sep false (some t) false d).result := ⟨rfl, rfl, rfl, rfl⟩

/-- C140 (finding): nesting in place that raises has already taken the parameters up to the one that does not fit: they are lost to the caller. -/
theorem C140_lost_fails {α} (a b c : α) :
    (unflatten ['.'] true none true (flatOf [(['a'], a), (['a', '.', 'b'], b), (['c'], c)])).result = none ∧
    (unflatten ['.'] true none true (flatOf [(['a'], a), (['a', '.', 'b'], b), (['c'], c)])).caller = flatOf [(['c'], c)] := ⟨rfl, rfl⟩

/-- C140 (finding): a target that has the separator in a key may name two leaves alike; then whatever the parameters are the call raises, and in place
the parameter is gone. -/
theorem C140_target_collision_fails {α} (a b c : α) (ip dict : Bool) (d : List (Name × Tree α)) :
    (unflatten ['.'] ip (some (dictNode [(['a'], dictNode [(['b'], .leaf a)]), (['a', '.', 'b'], .leaf b)])) dict d).result = none ∧
    (unflatten ['.'] true (some (dictNode [(['a'], dictNode [(['b'], .leaf a)]), (['a', '.', 'b'], .leaf b)])) true (flatOf [(['a', '.', 'b'], c)])).caller = [] := by
  refine ⟨?_, rfl⟩
  rw [result_target]
  have e : (toFlatSep ['.'] false (dictNode [(['a'], dictNode [(['b'], Tree.leaf a)]), (['a', '.', 'b'], .leaf b)])).map (·.1) = [['a', '.', 'b']] := rfl
  rw [e]
  generalize withDefaults _ d = q
  rw [List.mapM_cons, List.mapM_nil]
  cases Assoc.get q ['a', '.', 'b'] with
  | none => rfl
  | some v => rfl

/-- The example of the documentation, and a target with a missing and a superfluous parameter. -/
theorem C140_nonvacuous :
    (unflatten ['.'] false none true (flatOf [(['l', '.', 'k', '.', 'q'], 1), (['l', '.', 'k', '.', 's'], 2), (['b'], 3)])).result =
      some (dictNode [(['l'], dictNode [(['k'], dictNode [(['q'], .leaf 1), (['s'], .leaf 2)])]), (['b'], .leaf 3)]) ∧
    parts ['.'] ['l', '.', 'k'] = [['l'], ['k']] ∧
    (let t : Tree Nat := dictNode [(['l'], dictNode [(['k'], .leaf 7), (['m'], .leaf 8)])]
     let o := unflatten ['.'] true (some t) true (flatOf [(['l', '.', 'k'], 1), (['z'], 5)])
     o.result = some (dictNode [(['l'], dictNode [(['k'], .leaf 1), (['m'], .leaf 8)])]) ∧ o.caller = flatOf [(['z'], 5)] ∧
       (leafNames ['.'] t).Nodup ∧ t.Distinct) := by
  refine ⟨rfl, rfl, rfl, rfl, by decide, ?_⟩
  simp [dictNode, Forest.ofList, Tree.Distinct, Forest.Distinct, Forest.keys, Key.str, Key.name, Atom.toStr]

end Verif.Trees.Nesting
