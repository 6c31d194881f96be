import Verif.Handlers.Composite

/-!
# C56: handler registries and the composite handler
-/

set_option linter.unusedSectionVars false

namespace Verif.Composite

variable {A C : Type} [DecidableEq A] [DecidableEq C]

/-! ## Specification -/

/-- The first handler registered for an item. -/
def firstHandler (r : Registry A C) (item : String) : Option (Handler C) := (r.find? fun x => x.1.1 = some item).map (·.2)

/-- A registry made for use with items: no entries for args alone, and one handler for each item. -/
structure PerItem (r : Registry A C) : Prop where
  items : ∀ x ∈ r, x.1.1 ≠ none
  one : ∀ x ∈ r, ∀ y ∈ r, x.1.1 = y.1.1 → x.2 = y.2

/-- The composite handlers a user can make: without arguments, with names and handlers of items, with a registry. -/
inductive Made (g : Global A C) : State A C → Prop where
  | empty (n) : Made g (initEmpty n)
  | items {n names items s} : (items.map (·.1)).Nodup → initItems g n names items = some s → Made g s
  | registry {n r s} : PerItem r → initRegistry r n = some s → Made g s

/-- The call is not a save and not a finalization. -/
def Op.IsRestore : Op A C → Prop
  | .restore .. => True
  | _ => False

/-! ## Lookups -/

theorem get_append (r r' : Registry A C) (i : Option String) (a : A) :
    get (r ++ r') i a = (get r i a).or (get r' i a) := by
  simp only [get, List.find?_append]
  cases r.find? (fun x => decide (x.1 = (i, a))) <;> simp

theorem get_of_prefix {r r' : Registry A C} (h : r <+: r') {i : Option String} {a : A} {x : Handler C} (hg : get r i a = some x) :
    get r' i a = some x := by
  obtain ⟨t, rfl⟩ := h
  simp [get_append, hg]

theorem add_some {r r' : Registry A C} {i : Option String} {a : A} {h : Handler C} (hr : add r i a h = some r') :
    get r i a = none ∧ r' = r ++ [((i, a), h)] := by
  unfold add at hr
  split at hr
  · cases hr
  · rename_i hn
    cases hr
    simp only [has, Bool.not_eq_true, Option.isSome_eq_false_iff, Option.isNone_iff_eq_none] at hn
    exact ⟨hn, rfl⟩

/-! ## C56: the registry -/

/-- After a successful registration the lookup gives the handler, and all other lookups are as before. -/
theorem C56_registry_add (r r' : Registry A C) (i : Option String) (a : A) (h : Handler C) (hr : add r i a h = some r') :
    get r' i a = some h ∧ ∀ j b, (j, b) ≠ (i, a) → get r' j b = get r j b := by
  obtain ⟨hn, rfl⟩ := add_some hr
  refine ⟨by simp [get_append, hn]; simp [get], ?_⟩
  intro j b hne
  have : get [((i, a), h)] j b = none := by
    simp only [get, List.find?_singleton]
    simp [Ne.symm hne]
  simp [get_append, this]

/-- A registration is refused exactly when there is one for the item and args. -/
theorem C56_registry_refused (r : Registry A C) (i : Option String) (a : A) (h : Handler C) :
    add r i a h = none ↔ ∃ h', get r i a = some h' := by
  unfold add has
  cases hg : get r i a <;> simp

theorem copyInto_spec : ∀ (l r : Registry A C) (r' : Registry A C), copyInto r l = some r' → r' = r ++ l
  | [], r, r', h => by cases h; simp
  | ((i, a), x) :: l, r, r', h => by
    simp only [copyInto, Option.bind_eq_some_iff] at h
    obtain ⟨r1, h1, h2⟩ := h
    obtain ⟨_, rfl⟩ := add_some h1
    rw [copyInto_spec l _ r' h2]; simp

/-- A copy of a registry has the same entries in the same order. -/
theorem C56_registry_copy (r r' : Registry A C) (h : copyInto [] r = some r') : r' = r := by
  simpa using copyInto_spec r [] r' h

/-- C56 fails for handlers with one args class for saving and restoring: the registry of default handlers cannot be made with them. -/
theorem C56_default_registry_fails (g : Global A C) (item : String) (h : Handler C) (l : List (String × Handler C)) (a : A)
    (ha : g.args h.cls = some (a, a)) : createDefault g [] ((item, h) :: l) = none := by
  simp [createDefault, ha, add, has, get]

/-- With different args classes for saving and restoring, and different items, it has both for each item. -/
theorem createDefault_spec (g : Global A C) : ∀ (l : List (String × Handler C)) (r : Registry A C), (l.map (·.1)).Nodup →
    (∀ x ∈ l, ∀ y ∈ r, y.1.1 ≠ some x.1) → (∀ x ∈ l, ∃ s rs, s ≠ rs ∧ g.args x.2.cls = some (s, rs)) →
    ∃ r', createDefault g r l = some r' ∧ r <+: r' ∧
      ∀ x ∈ l, ∀ s rs, g.args x.2.cls = some (s, rs) → get r' (some x.1) s = some x.2 ∧ get r' (some x.1) rs = some x.2
  | [], r, _, _, _ => ⟨r, rfl, List.prefix_refl _, by simp⟩
  | (i, h) :: l, r, hn, hr, ha => by
    obtain ⟨s, rs, hne, hs⟩ := ha (i, h) (by simp)
    have hfresh : ∀ a, get r (some i) a = none := by
      intro a
      simp only [get, Option.map_eq_none_iff, List.find?_eq_none, decide_eq_true_eq]
      intro y hy e
      exact hr (i, h) (by simp) y hy (by rw [e])
    have h1 : add r (some i) s h = some (r ++ [((some i, s), h)]) := by simp [add, has, hfresh]
    have h2 : add (r ++ [((some i, s), h)]) (some i) rs h = some (r ++ [((some i, s), h)] ++ [((some i, rs), h)]) := by
      have : get [((some i, s), h)] (some i) rs = none := by simp [get, hne]
      simp [add, has, get_append, hfresh, this]
    simp only [List.map_cons, List.nodup_cons, List.mem_map, not_exists, not_and] at hn
    obtain ⟨r', hr', hp, hall⟩ := createDefault_spec g l (r ++ [((some i, s), h)] ++ [((some i, rs), h)]) hn.2 (by
      intro x hx y hy
      simp only [List.mem_append, List.mem_singleton] at hy
      rcases hy with (hy | rfl) | rfl
      · exact hr x (List.mem_cons_of_mem _ hx) y hy
      · intro e; cases e; exact hn.1 x hx rfl
      · intro e; cases e; exact hn.1 x hx rfl) (fun x hx => ha x (List.mem_cons_of_mem _ hx))
    refine ⟨r', ?_, ?_, ?_⟩
    · simp only at hs
      simp only [createDefault, hs, h1, h2, hr', Option.bind_eq_bind, Option.bind_some]
    · exact ((List.prefix_append _ _).trans (List.prefix_append _ _)).trans hp
    · intro x hx s' rs' hs'
      rcases List.mem_cons.mp hx with rfl | hx
      · simp only at hs'
        rw [hs] at hs'
        cases hs'
        have e1 : get [((some i, s), h)] (some i) s = some h := by simp [get]
        have e2 : get [((some i, rs), h)] (some i) rs = some h := by simp [get]
        have e3 : get [((some i, s), h)] (some i) rs = none := by simp [get, hne]
        refine ⟨get_of_prefix hp ?_, get_of_prefix hp ?_⟩
        · rw [get_append, get_append, hfresh, e1]; rfl
        · rw [get_append, get_append, hfresh, e2, e3]; rfl
      · exact hall x hx s' rs' hs'

theorem C56_default_registry (g : Global A C) (l : List (String × Handler C)) (hn : (l.map (·.1)).Nodup)
    (ha : ∀ x ∈ l, ∃ s rs, s ≠ rs ∧ g.args x.2.cls = some (s, rs)) :
    ∃ r, createDefault g [] l = some r ∧
      ∀ x ∈ l, ∀ s rs, g.args x.2.cls = some (s, rs) → get r (some x.1) s = some x.2 ∧ get r (some x.1) rs = some x.2 := by
  obtain ⟨r, h1, _, h2⟩ := createDefault_spec g l [] hn (by simp) ha
  exact ⟨r, h1, h2⟩

/-! ## How the registry grows -/

/-- The item's first use is over: it is not registered from the global registry any more. -/
def Blocked (s : State A C) (item : String) : Prop :=
  match s.unregistered with
  | some un => item ∉ un
  | none => item ∈ s.deferred

/-- What later states keep. -/
structure Ext (s s' : State A C) : Prop where
  grows : s.registry <+: s'.registry
  general : ∀ a, get s'.registry none a = get s.registry none a
  blocked : ∀ i, Blocked s i → Blocked s' i
  closed : ∀ i, Blocked s i → ∀ a, get s.registry none a = none → get s'.registry (some i) a = get s.registry (some i) a

theorem Ext.refl (s : State A C) : Ext s s := ⟨List.prefix_refl _, fun _ => rfl, fun _ h => h, fun _ _ _ _ => rfl⟩

theorem Ext.trans {s s' s'' : State A C} (h : Ext s s') (h' : Ext s' s'') : Ext s s'' :=
  ⟨h.grows.trans h'.grows, fun a => (h'.general a).trans (h.general a), fun i hi => h'.blocked i (h.blocked i hi),
    fun i hi a ha => (h'.closed i (h.blocked i hi) a ((h.general a).trans ha)).trans (h.closed i hi a ha)⟩

/-- What the registration from the global registry adds. -/
theorem addGlobal_spec (g : Global A C) (r : Registry A C) (h : Handler C) (item : String) :
    ∃ l, (addGlobal g r h item).1 = r ++ l ∧ (∀ x ∈ l, x.1.1 = some item ∧ x.2 = h) ∧
      ((addGlobal g r h item).2 = true → ∃ s rs, g.args h.cls = some (s, rs) ∧ l ≠ [] ∧
        get (addGlobal g r h item).1 (some item) s = some h ∧ get (addGlobal g r h item).1 (some item) rs = some h) := by
  unfold addGlobal
  rcases ha : g.args h.cls with _ | ⟨s, rs⟩
  · exact ⟨[], by simp, by simp, by simp⟩
  · simp only
    rcases h1 : add r (some item) s h with _ | r1
    · exact ⟨[], by simp, by simp, by simp⟩
    · obtain ⟨hn, rfl⟩ := add_some h1
      have g1 := (C56_registry_add _ _ _ _ _ h1).1
      simp only
      by_cases hrs : rs = s
      · subst hrs
        refine ⟨[((some item, rs), h)], by simp, by simp, ?_⟩
        intro _
        exact ⟨rs, rs, rfl, by simp, by simpa using g1, by simpa using g1⟩
      · simp only [ne_eq, hrs, not_false_eq_true, if_true]
        rcases h2 : add (r ++ [((some item, s), h)]) (some item) rs h with _ | r2
        · exact ⟨[((some item, s), h)], by simp, by simp, by simp⟩
        · have g2 := C56_registry_add _ _ _ _ _ h2
          obtain ⟨hn2, rfl⟩ := add_some h2
          refine ⟨[((some item, s), h), ((some item, rs), h)], by simp, by simp, ?_⟩
          intro _
          refine ⟨s, rs, rfl, by simp, ?_, g2.1⟩
          simp only
          rw [g2.2 _ _ (by simp [Ne.symm hrs])]; exact g1

theorem get_items {l : Registry A C} {item : String} (hl : ∀ x ∈ l, x.1.1 = some item) {i : Option String} (hi : i ≠ some item) (a : A) : get l i a = none := by
  simp only [get, Option.map_eq_none_iff, List.find?_eq_none, decide_eq_true_eq]
  intro x hx e
  exact hi (by rw [← hl x hx, e])

theorem unique_snoc (r : Registry A C) (x : (Option String × A) × Handler C) : unique (r ++ [x]) =
    match x.1.1 with
    | some i => if (i, x.2) ∈ unique r then unique r else unique r ++ [(i, x.2)]
    | none => unique r := by
  simp only [unique, List.foldl_append, List.foldl_cons, List.foldl_nil]
  cases x.1.1 <;> rfl

theorem snoc_induction {α} {P : List α → Prop} (h0 : P []) (h1 : ∀ l x, P l → P (l ++ [x])) (l : List α) : P l := by
  rw [← List.reverse_reverse l]
  induction l.reverse with
  | nil => simpa using h0
  | cons x l ih => simpa using h1 _ x ih

theorem mem_unique (r : Registry A C) (i : String) (h : Handler C) : (i, h) ∈ unique r ↔ ∃ x ∈ r, x.1.1 = some i ∧ x.2 = h := by
  induction r using snoc_induction with
  | h0 => simp [unique]
  | h1 r x ih =>
    rw [unique_snoc]
    have hr : (∃ y ∈ r ++ [x], y.1.1 = some i ∧ y.2 = h) ↔ (∃ y ∈ r, y.1.1 = some i ∧ y.2 = h) ∨ (x.1.1 = some i ∧ x.2 = h) := by
      simp only [List.mem_append, List.mem_singleton]
      constructor
      · rintro ⟨y, hy | rfl, h⟩
        · exact .inl ⟨y, hy, h⟩
        · exact .inr h
      · rintro (⟨y, hy, h⟩ | h)
        · exact ⟨y, .inl hy, h⟩
        · exact ⟨x, .inr rfl, h⟩
    rw [hr, ← ih]
    split
    · rename_i j hj
      split
      · rename_i hm
        constructor
        · exact .inl
        · rintro (h' | ⟨h1, rfl⟩)
          · exact h'
          · rw [hj] at h1; cases h1; exact hm
      · rw [List.mem_append, List.mem_singleton, hj]
        simp only [Prod.mk.injEq, Option.some.injEq]
        constructor
        · rintro (h' | ⟨rfl, rfl⟩)
          · exact .inl h'
          · exact .inr ⟨rfl, rfl⟩
        · rintro (h' | ⟨rfl, rfl⟩)
          · exact .inl h'
          · exact .inr ⟨rfl, rfl⟩
    · rename_i hj
      simp [hj]

theorem unique_first (r : Registry A C) (i : String) : ((unique r).find? fun x => x.1 = i).map (·.2) = firstHandler r i := by
  induction r using snoc_induction with
  | h0 => simp [unique, firstHandler]
  | h1 r x ih =>
    have hf : firstHandler (r ++ [x]) i = (firstHandler r i).or (if x.1.1 = some i then some x.2 else none) := by
      simp only [firstHandler, List.find?_append]
      cases r.find? (fun x => decide (x.1.1 = some i))
      · by_cases h : x.1.1 = some i <;> simp [h]
      · simp
    rw [unique_snoc, hf, ← ih]
    split
    · rename_i j hj
      split
      · rename_i hm
        by_cases hji : j = i
        · subst hji
          have : ((unique r).find? fun x => x.1 = j).isSome := by
            rw [List.find?_isSome]; exact ⟨_, hm, by simp⟩
          obtain ⟨y, hy⟩ := Option.isSome_iff_exists.mp this
          simp [hy]
        · simp [hj, hji]
      · rw [List.find?_append]
        cases (unique r).find? (fun x => decide (x.1 = i))
        · by_cases h : j = i <;> simp [hj, h]
        · simp
    · rename_i hj
      simp [hj]

/-- A lookup by the composite handler: what it changes, and what its success means. -/
theorem getOrSet_spec (g : Global A C) (s : State A C) (item : String) (oa : Option A) {o : Option (Handler C)} {s' : State A C}
    (he : getOrSet g s item oa = (o, s')) :
    Ext s s' ∧ s'.temp = s.temp ∧
    ∀ h, o = some h → (∃ x ∈ s'.registry, x.1.1 = some item ∧ x.2 = h) ∧
      ∀ a, oa = some a → get s'.registry (some item) a = some h ∨
        (get s'.registry (some item) a = none ∧ Blocked s' item ∧
          get s'.registry none a = none ∧ g.cls a = some h.cls ∧ ∀ s rs, g.args h.cls = some (s, rs) → a ≠ s ∧ a ≠ rs) := by
  cases oa with
  | none =>
    simp only [getOrSet, Prod.mk.injEq] at he
    obtain ⟨rfl, rfl⟩ := he
    refine ⟨Ext.refl _, rfl, ?_⟩
    intro h hh
    refine ⟨?_, by simp⟩
    rw [Option.map_eq_some_iff] at hh
    obtain ⟨⟨i, h'⟩, hf, rfl⟩ := hh
    have hi := List.find?_some hf
    simp only [decide_eq_true_eq] at hi
    subst hi
    exact (mem_unique _ _ _).mp (List.mem_of_find?_eq_some hf)
  | some a =>
    simp only [getOrSet] at he
    rcases h1 : get s.registry (some item) a with _ | h
    · simp only [h1] at he
      rcases h2 : get s.registry none a with _ | h
      · simp only [h2] at he
        rcases h3 : g.cls a with _ | c
        · simp only [h3, Prod.mk.injEq] at he
          obtain ⟨rfl, rfl⟩ := he
          exact ⟨Ext.refl _, rfl, by simp⟩
        · simp only [h3] at he
          split at he
          · simp only [Prod.mk.injEq] at he
            obtain ⟨rfl, rfl⟩ := he
            exact ⟨Ext.refl _, rfl, by simp⟩
          · -- registration from the global registry
            have key : ∀ (un : Option (List String)) (df : List String), (∀ i, Blocked s i → i ≠ item) →
                (∀ i, Blocked s i → Blocked (⟨s.registry, un, df, s.next + 1, s.temp⟩ : State A C) i) →
                Blocked (⟨s.registry, un, df, s.next + 1, s.temp⟩ : State A C) item →
                o = (if (addGlobal g s.registry ⟨c, s.next⟩ item).2 then some ⟨c, s.next⟩ else none) →
                s' = ⟨(addGlobal g s.registry ⟨c, s.next⟩ item).1, un, df, s.next + 1, s.temp⟩ →
                (Ext s s' ∧ s'.temp = s.temp ∧
                ∀ h, o = some h → (∃ x ∈ s'.registry, x.1.1 = some item ∧ x.2 = h) ∧
                  ∀ a', some a = some a' → get s'.registry (some item) a' = some h ∨
                    (get s'.registry (some item) a' = none ∧ Blocked s' item ∧
                      get s'.registry none a' = none ∧ g.cls a' = some h.cls ∧ ∀ s rs, g.args h.cls = some (s, rs) → a' ≠ s ∧ a' ≠ rs)) := by
              intro un df hb1 hb2 hb3 ho hs'
              obtain ⟨l, hl, hl2, hl3⟩ := addGlobal_spec g s.registry ⟨c, s.next⟩ item
              have hli : ∀ x ∈ l, x.1.1 = some item := fun x hx => (hl2 x hx).1
              subst hs'
              refine ⟨⟨?_, ?_, ?_, ?_⟩, rfl, ?_⟩
              · simp only [hl]; exact List.prefix_append _ _
              · intro a'
                simp [hl, get_append, get_items hli (i := none) (by simp)]
              · exact hb2
              · intro i hi a' _
                simp [hl, get_append, get_items hli (i := some i) (by simp [hb1 i hi])]
              · intro h hh
                rw [ho] at hh
                split at hh
                · rename_i hok
                  cases hh
                  obtain ⟨sv, rs, hargs, hne, g1, g2⟩ := hl3 hok
                  refine ⟨?_, ?_⟩
                  · obtain ⟨x, hx⟩ := List.exists_mem_of_ne_nil l hne
                    exact ⟨x, by simp only [hl]; exact List.mem_append_right _ hx, hl2 x hx⟩
                  · rintro a' ⟨⟩
                    rcases hg : get (addGlobal g s.registry ⟨c, s.next⟩ item).1 (some item) a with _ | h'
                    · right
                      refine ⟨rfl, hb3, ?_, h3, ?_⟩
                      · simp [hl, get_append, get_items hli (i := none) (by simp), h2]
                      · intro sv' rs' hargs'
                        rw [hargs] at hargs'
                        cases hargs'
                        refine ⟨?_, ?_⟩ <;> rintro rfl
                        · rw [g1] at hg; cases hg
                        · rw [g2] at hg; cases hg
                    · left
                      have : get l (some item) a = some h' := by
                        simpa [hl, get_append, h1] using hg
                      simp only [get, Option.map_eq_some_iff] at this
                      obtain ⟨y, hy, rfl⟩ := this
                      rw [(hl2 y (List.mem_of_find?_eq_some hy)).2]
                · cases hh
            have hmono : Ext s { s with next := s.next + 1 } :=
              ⟨List.prefix_refl _, fun _ => rfl, fun _ h => h, fun _ _ _ _ => rfl⟩
            rcases hun : s.unregistered with _ | un
            · simp only [hun] at he
              split at he
              · simp only [Prod.mk.injEq] at he
                obtain ⟨rfl, rfl⟩ := he
                exact ⟨by simpa [hun] using hmono, rfl, by simp⟩
              · rename_i hni
                simp only [Prod.mk.injEq] at he
                refine key none (item :: s.deferred) ?_ ?_ ?_ he.1.symm he.2.symm
                · intro i hi; simp only [Blocked, hun] at hi; rintro rfl; exact hni hi
                · intro i hi; simp only [Blocked, hun] at hi; simp only [Blocked]; exact List.mem_cons_of_mem _ hi
                · simp [Blocked]
            · simp only [hun] at he
              split at he
              · rename_i hi
                simp only [Prod.mk.injEq] at he
                refine key (some (un.filter fun i => i ≠ item)) s.deferred ?_ ?_ ?_ he.1.symm he.2.symm
                · intro i hi'; simp only [Blocked, hun] at hi'; rintro rfl; exact hi' hi
                · intro i hi'; simp only [Blocked, hun] at hi'; simp only [Blocked, List.mem_filter]; exact fun h => hi' h.1
                · simp [Blocked]
              · simp only [Prod.mk.injEq] at he
                obtain ⟨rfl, rfl⟩ := he
                exact ⟨by simpa [hun] using hmono, rfl, by simp⟩
      · -- a general handler
        have h4 : add s.registry (some item) a h = some (s.registry ++ [((some item, a), h)]) := by simp [add, has, h1]
        simp only [h2, h4, Prod.mk.injEq] at he
        obtain ⟨rfl, rfl⟩ := he
        have hl : ∀ x ∈ [((some item, a), h)], x.1.1 = some item := by simp
        refine ⟨⟨List.prefix_append _ _, ?_, fun _ h => h, ?_⟩, rfl, ?_⟩
        · intro a'
          simp [get_append, get_items hl (i := none) (by simp)]
        · intro i hi a' ha'
          simp only [get_append]
          have : get [((some item, a), h)] (some i) a' = none := by
            simp only [get, List.find?_singleton]
            have : a ≠ a' := by rintro rfl; rw [h2] at ha'; cases ha'
            simp [this]
          simp [this]
        · rintro h' ⟨⟩
          refine ⟨⟨((some item, a), h), by simp, rfl, rfl⟩, ?_⟩
          rintro a' ⟨⟩
          left
          rw [get_append, h1]; simp [get]
    · simp only [h1, Prod.mk.injEq] at he
      obtain ⟨rfl, rfl⟩ := he
      refine ⟨Ext.refl _, rfl, ?_⟩
      rintro h' ⟨⟩
      refine ⟨?_, by rintro a' ⟨⟩; exact .inl h1⟩
      simp only [get, Option.map_eq_some_iff] at h1
      obtain ⟨x, hx, rfl⟩ := h1
      have := List.find?_some hx
      simp only [decide_eq_true_eq] at this
      exact ⟨x, List.mem_of_find?_eq_some hx, by rw [this], rfl⟩

theorem saveItems_spec (g : Global A C) : ∀ (l : List (String × Option A)) (s : State A C) {done ok s'}, saveItems g s l = (done, ok, s') →
    Ext s s' ∧ s'.temp = s.temp ∧ (ok = true → done.map (·.1) = l.map (·.1)) ∧ ∀ y ∈ done, ∃ x ∈ s'.registry, x.1.1 = some y.1 ∧ x.2 = y.2
  | [], s, done, ok, s', h => by
    simp only [saveItems, Prod.mk.injEq] at h
    obtain ⟨rfl, rfl, rfl⟩ := h
    exact ⟨Ext.refl _, rfl, by simp, by simp⟩
  | (i, a) :: l, s, done, ok, s', h => by
    rcases hg : getOrSet g s i a with ⟨_ | hd, s1⟩
    · simp only [saveItems, hg, Prod.mk.injEq] at h
      obtain ⟨rfl, rfl, rfl⟩ := h
      have := getOrSet_spec g s i a hg
      exact ⟨this.1, this.2.1, by simp, by simp⟩
    · rcases hs : saveItems g s1 l with ⟨d, k, s2⟩
      simp only [saveItems, hg, hs, Prod.mk.injEq] at h
      obtain ⟨rfl, rfl, rfl⟩ := h
      have h1 := getOrSet_spec g s i a hg
      have h2 := saveItems_spec g l s1 hs
      refine ⟨h1.1.trans h2.1, h2.2.1.trans h1.2.1, ?_, ?_⟩
      · intro hk; simp [h2.2.2.1 hk]
      · intro y hy
        rcases List.mem_cons.mp hy with rfl | hy
        · obtain ⟨x, hx, hx2⟩ := (h1.2.2 hd rfl).1
          exact ⟨x, h2.1.grows.subset hx, hx2⟩
        · exact h2.2.2.2 y hy

theorem restoreItems_spec (g : Global A C) (ex : List String) : ∀ (l : List (String × Option A)) (s : State A C) {done ok s'},
    restoreItems g ex s l = (done, ok, s') →
    Ext s s' ∧ s'.temp = s.temp ∧ (ok = true → done.map (·.1) = l.map (·.1) ∧ ∀ x ∈ l, x.1 ∈ ex) ∧
      ∀ y ∈ done, ∃ x ∈ s'.registry, x.1.1 = some y.1 ∧ x.2 = y.2
  | [], s, done, ok, s', h => by
    simp only [restoreItems, Prod.mk.injEq] at h
    obtain ⟨rfl, rfl, rfl⟩ := h
    exact ⟨Ext.refl _, rfl, by simp, by simp⟩
  | (i, a) :: l, s, done, ok, s', h => by
    by_cases hi : i ∈ ex
    · rcases hg : getOrSet g s i a with ⟨_ | hd, s1⟩
      · simp only [restoreItems, hi, if_true, hg, Prod.mk.injEq] at h
        obtain ⟨rfl, rfl, rfl⟩ := h
        have := getOrSet_spec g s i a hg
        exact ⟨this.1, this.2.1, by simp, by simp⟩
      · rcases hs : restoreItems g ex s1 l with ⟨d, k, s2⟩
        simp only [restoreItems, hi, if_true, hg, hs, Prod.mk.injEq] at h
        obtain ⟨rfl, rfl, rfl⟩ := h
        have h1 := getOrSet_spec g s i a hg
        have h2 := restoreItems_spec g ex l s1 hs
        refine ⟨h1.1.trans h2.1, h2.2.1.trans h1.2.1, ?_, ?_⟩
        · intro hk
          refine ⟨by simp [(h2.2.2.1 hk).1], ?_⟩
          intro x hx
          rcases List.mem_cons.mp hx with rfl | hx
          · exact hi
          · exact (h2.2.2.1 hk).2 x hx
        · intro y hy
          rcases List.mem_cons.mp hy with rfl | hy
          · obtain ⟨x, hx, hx2⟩ := (h1.2.2 hd rfl).1
            exact ⟨x, h2.1.grows.subset hx, hx2⟩
          · exact h2.2.2.2 y hy
    · simp only [restoreItems, hi, if_false, Prod.mk.injEq] at h
      obtain ⟨rfl, rfl, rfl⟩ := h
      exact ⟨Ext.refl _, rfl, by simp, by simp⟩

theorem ext_temp (s : State A C) (t : List String) : Ext s { s with temp := t } :=
  ⟨List.prefix_refl _, fun _ => rfl, fun _ h => h, fun _ _ _ _ => rfl⟩

theorem restore_ext (g : Global A C) (s : State A C) (ex typeOf default args) :
    Ext s (restore g s ex typeOf default args).2.2 ∧ (restore g s ex typeOf default args).2.2.temp = s.temp := by
  unfold restore
  split
  · split
    · exact ⟨Ext.refl _, rfl⟩
    · rename_i l _
      have := restoreItems_spec g ex l s (done := _) (ok := _) (s' := _) rfl
      exact ⟨this.1, this.2.1⟩
  · have := restoreItems_spec g ex args s (done := _) (ok := _) (s' := _) rfl
    exact ⟨this.1, this.2.1⟩

theorem step_ext (g : Global A C) (s : State A C) (op : Op A C) : Ext s (step g s op) := by
  cases op with
  | save args => exact (ext_temp s _).trans (saveItems_spec g args _ (done := _) (ok := _) (s' := _) rfl).1
  | restore ex typeOf default args => exact (restore_ext g s ex typeOf default args).1
  | finalize =>
    simp only [step, finalize]
    split
    · exact Ext.refl _
    · exact ext_temp s _

theorem run_ext (g : Global A C) : ∀ (l : List (Op A C)) (s : State A C), Ext s (run g s l)
  | [], s => Ext.refl s
  | op :: l, s => (step_ext g s op).trans (run_ext g l _)

/-! ## C56: the handler of an item -/

theorem saveItems_keys (g : Global A C) : ∀ (l : List (String × Option A)) (s : State A C), ∀ y ∈ (saveItems g s l).1, y.1 ∈ l.map (·.1)
  | [], s, y, hy => by simp [saveItems] at hy
  | (i, a) :: l, s, y, hy => by
    rcases hg : getOrSet g s i a with ⟨_ | hb, s1⟩
    · simp [saveItems, hg] at hy
    · simp only [saveItems, hg, List.mem_cons] at hy
      rcases hy with rfl | hy
      · simp
      · exact List.mem_cons_of_mem _ (saveItems_keys g l s1 y hy)

theorem saveItems_at (g : Global A C) : ∀ (l : List (String × Option A)) (s : State A C), (l.map (·.1)).Nodup → ∀ {done ok s'},
    saveItems g s l = (done, ok, s') → ∀ {i a h}, (i, a) ∈ l → (i, h) ∈ done →
    ∃ s0 s1, Ext s s0 ∧ getOrSet g s0 i a = (some h, s1) ∧ Ext s1 s'
  | [], s, _, done, ok, s', h, i, a, hd, hm, _ => by simp at hm
  | (j, b) :: l, s, hn, done, ok, s', h, i, a, hd, hm, hmd => by
    simp only [List.map_cons, List.nodup_cons] at hn
    rcases hg : getOrSet g s j b with ⟨_ | hb, s1⟩
    · simp only [saveItems, hg, Prod.mk.injEq] at h
      obtain ⟨rfl, rfl, rfl⟩ := h
      simp at hmd
    · rcases hs : saveItems g s1 l with ⟨d, k, s2⟩
      simp only [saveItems, hg, hs, Prod.mk.injEq] at h
      obtain ⟨rfl, rfl, rfl⟩ := h
      have h2 := saveItems_spec g l s1 hs
      have hsub : ∀ y ∈ d, y.1 ∈ l.map (·.1) := by
        intro y hy
        exact saveItems_keys g l s1 y (by rw [hs]; exact hy)
      rcases List.mem_cons.mp hm with hm | hm
      · cases hm
        rcases List.mem_cons.mp hmd with hmd | hmd
        · cases hmd
          exact ⟨s, s1, Ext.refl _, hg, h2.1⟩
        · exact absurd (hsub _ hmd) hn.1
      · rcases List.mem_cons.mp hmd with hmd | hmd
        · cases hmd
          exact absurd (List.mem_map_of_mem hm) hn.1
        · obtain ⟨s0, s1', e1, e2, e3⟩ := saveItems_at g l s1 hn.2 hs hm hmd
          exact ⟨s0, s1', (getOrSet_spec g s j b hg).1.trans e1, e2, e3⟩

/-- A restoration of items that exist looks handlers up like a save. -/
theorem restoreItems_save (g : Global A C) (ex : List String) : ∀ (l : List (String × Option A)) (s : State A C),
    ∃ l', l' <+: l ∧ (restoreItems g ex s l).1 = (saveItems g s l').1 ∧ (restoreItems g ex s l).2.2 = (saveItems g s l').2.2
  | [], s => ⟨[], List.prefix_refl _, rfl, rfl⟩
  | (i, a) :: l, s => by
    by_cases hi : i ∈ ex
    · rcases hg : getOrSet g s i a with ⟨_ | h, s1⟩
      · exact ⟨[(i, a)], by simp, by simp [restoreItems, hi, hg, saveItems], by simp [restoreItems, hi, hg, saveItems]⟩
      · obtain ⟨l', h1, h2, h3⟩ := restoreItems_save g ex l s1
        refine ⟨(i, a) :: l', by simpa using h1, ?_, ?_⟩
        · simp [restoreItems, hi, hg, saveItems, h2]
        · simp [restoreItems, hi, hg, saveItems, h3]
    · exact ⟨[], List.nil_prefix, by simp [restoreItems, hi, saveItems], by simp [restoreItems, hi, saveItems]⟩

/-- A save or a restoration uses handler `h` for the item, given with args `a`. -/
inductive Uses (g : Global A C) (s : State A C) (item : String) (a : A) (h : Handler C) : Op A C → Prop where
  | save {args} : (args.map (·.1)).Nodup → (item, some a) ∈ args → (item, h) ∈ (save g s args).1 → Uses g s item a h (.save args)
  | restore {ex typeOf default args} : (args.map (·.1)).Nodup → (item, some a) ∈ args → (item, h) ∈ (restore g s ex typeOf default args).1 →
      Uses g s item a h (.restore ex typeOf default args)

theorem uses_at {g : Global A C} {s : State A C} {i : String} {a : A} {h : Handler C} {op : Op A C} (hu : Uses g s i a h op) :
    ∃ s0 s1, Ext s s0 ∧ getOrSet g s0 i (some a) = (some h, s1) ∧ Ext s1 (step g s op) := by
  cases hu with
  | save hn hm hd =>
    obtain ⟨s0, s1, h1, h2, h3⟩ := saveItems_at g _ _ hn (done := _) (ok := _) (s' := _) rfl hm hd
    exact ⟨s0, s1, (ext_temp _ _).trans h1, h2, h3⟩
  | restore hn hm hd =>
    rename_i ex typeOf default args
    have hne : args ≠ [] := by rintro rfl; simp at hm
    simp only [restore, hne, if_false] at hd
    simp only [step, restore, hne, if_false]
    obtain ⟨l', hp, e1, e2⟩ := restoreItems_save g ex args s
    rw [e1] at hd
    have hn' : (l'.map (·.1)).Nodup := hn.sublist (hp.sublist.map _)
    have hm' : (i, some a) ∈ l' := by
      have hsp := saveItems_spec g l' s (done := _) (ok := _) (s' := _) rfl
      obtain ⟨t, rfl⟩ := hp
      rcases List.mem_append.mp hm with hm | hm
      · exact hm
      · exfalso
        have hi : i ∈ l'.map (·.1) := by
          have := saveItems_keys g l' s (i, h) hd
          exact this
        rw [List.map_append, List.nodup_append] at hn
        exact hn.2.2 i hi i (List.mem_map_of_mem (f := (·.1)) hm) rfl
    obtain ⟨s0, s1, h1, h2, h3⟩ := saveItems_at g l' s hn' (done := _) (ok := _) (s' := _) rfl hm' hd
    exact ⟨s0, s1, h1, h2, by rw [e2]; exact h3⟩

theorem stable_ext (g : Global A C) (s s1 : State A C) (item : String) (a : A) (h : Handler C) (h1 : getOrSet g s item (some a) = (some h, s1))
    (s2 : State A C) (he : Ext s1 s2) (h' : Handler C) (h2 : (getOrSet g s2 item (some a)).1 = some h') : h' = h := by
  have hs := getOrSet_spec g s item (some a) h1
  rcases (hs.2.2 h rfl).2 a rfl with hg | ⟨hg, hb, hn, hc, ha⟩
  · have := get_of_prefix he.grows hg
    simp only [getOrSet, this, Option.some.injEq] at h2
    exact h2.symm
  · exfalso
    have e1 := (he.closed item hb a hn).trans hg
    have e2 := (he.general a).trans hn
    have e3 := he.blocked item hb
    simp only [getOrSet, e1, e2] at h2
    split at h2
    · cases h2
    · split at h2
      · cases h2
      · simp only [Blocked] at e3
        rcases hu : s2.unregistered with _ | un
        · simp only [hu] at e3 h2; simp [e3] at h2
        · simp only [hu] at e3 h2; simp [e3] at h2

/-- C56: once an item was saved or restored with some args, the same handler is used whenever the item is saved or restored with those args, whatever
is done in between and with whatever outcome. -/
theorem C56_stable (g : Global A C) (s : State A C) (item : String) (a : A) (h h' : Handler C) (op op' : Op A C) (l : List (Op A C))
    (h1 : Uses g s item a h op) (h2 : Uses g (run g (step g s op) l) item a h' op') : h' = h := by
  obtain ⟨s0, s1, _, e1, e2⟩ := uses_at h1
  obtain ⟨s2, s3, e3, e4, _⟩ := uses_at h2
  exact stable_ext g s0 s1 item a h e1 _ ((e2.trans (run_ext g l _)).trans e3) h' (by rw [e4])

/-- … and it is used without error, if the args are those that were registered with the class of the handler (or that the registry given by the user
has for the item, or for all items). -/
theorem C56_stable_succeeds (g : Global A C) (s : State A C) (item : String) (a : A) (h : Handler C) (op : Op A C) (l : List (Op A C))
    (h1 : Uses g s item a h op)
    (ha : (∃ sv rs, g.args h.cls = some (sv, rs) ∧ (a = sv ∨ a = rs)) ∨ (∃ x ∈ s.registry, x.1 = (some item, a) ∨ x.1 = (none, a))) :
    ∃ s', save g (run g (step g s op) l) [(item, some a)] = ([(item, h)], true, s') := by
  obtain ⟨s0, s1, e0, e1, e2⟩ := uses_at h1
  have he := e2.trans (run_ext g l _)
  have hs := getOrSet_spec g s0 item (some a) e1
  have hg : get s1.registry (some item) a = some h := by
    rcases (hs.2.2 h rfl).2 a rfl with hg | ⟨hg, hb, hn, hc, hne⟩
    · exact hg
    · exfalso
      rcases ha with ⟨sv, rs, h3, h4⟩ | ⟨x, hx, hx1⟩
      · have := hne sv rs h3
        rcases h4 with rfl | rfl <;> simp at this
      · have hx' : x ∈ s1.registry := hs.1.grows.subset (e0.grows.subset hx)
        simp only [get, Option.map_eq_none_iff, List.find?_eq_none, decide_eq_true_eq] at hg hn
        rcases hx1 with hx1 | hx1
        · exact hg x hx' hx1
        · exact hn x hx' hx1
  have := get_of_prefix he.grows hg
  exact ⟨_, by simp [save, saveItems, getOrSet, this]; rfl⟩

/-- The first handler of an item has the class that the args are registered with: for saving, or else for restoring. -/
theorem C56_class (g : Global A C) (n : Nat) (item : String) (a : A) (c : C) (h : Handler C) (s : State A C)
    (hs : save g (initEmpty n) [(item, some a)] = ([(item, h)], true, s))
    (hn : (g.save.map (·.1)).Nodup) (hn' : (g.restore.map (·.1)).Nodup)
    (hc : (a, c) ∈ g.save ∨ ((∀ c', (a, c') ∉ g.save) ∧ (a, c) ∈ g.restore)) : h.cls = c := by
  have key : ∀ {l : List (A × C)}, (l.map (·.1)).Nodup → (a, c) ∈ l → l.find? (fun x => x.1 = a) = some (a, c) := by
    intro l
    induction l with
    | nil => intro _ h; simp at h
    | cons x l ih =>
      intro hn hm
      simp only [List.map_cons, List.nodup_cons] at hn
      rcases List.mem_cons.mp hm with rfl | hm
      · simp
      · have : x.1 ≠ a := by
          rintro rfl
          exact hn.1 (List.mem_map.mpr ⟨_, hm, rfl⟩)
        simp [this, ih hn.2 hm]
  have hcls : g.cls a = some c := by
    unfold Global.cls
    rcases hc with hc | ⟨hc1, hc2⟩
    · rw [key hn hc]
    · have : g.save.find? (fun x => x.1 = a) = none := by
        rw [List.find?_eq_none]
        rintro ⟨b, c'⟩ hx
        simp only [decide_eq_true_eq]
        rintro rfl
        exact hc1 c' hx
      rw [this, key hn' hc2]; rfl
  rcases hg : getOrSet g { (initEmpty n : State A C) with temp := [item] } item (some a) with ⟨o, s1⟩
  have ho : o = some h := by
    simp only [save, List.map_cons, List.map_nil, saveItems, hg] at hs
    rcases o with _ | k
    · simp at hs
    · simp only [Prod.mk.injEq, List.cons.injEq] at hs
      rw [hs.1.1.2]
  subst ho
  simp only [getOrSet, initEmpty, get, List.find?_nil, Option.map_none, hcls, List.not_mem_nil, if_false] at hg
  split at hg
  · simp at hg
  · simp only [Prod.mk.injEq] at hg
    have := hg.1
    rcases hb : (addGlobal g ([] : Registry A C) ⟨c, n⟩ item).2
    · simp [hb] at this
    · simp only [hb, if_true, Option.some.injEq] at this
      rw [← this]

/-- C56 fails when a handler class has more than one args class for saving: with the second, an item can be saved once, and then never again. -/
theorem C56_second_args_fails (g : Global A C) (n : Nat) (item : String) (a sv rs : A) (c : C) (hc : g.cls a = some c) (hk : g.constructs c = true)
    (ha : g.args c = some (sv, rs)) (h1 : a ≠ sv) (h2 : a ≠ rs) :
    ∃ h s, save g (initEmpty n) [(item, some a)] = ([(item, h)], true, s) ∧ h.cls = c ∧
      ∀ l : List (Op A C), (save g (run g s l) [(item, some a)]).2.1 = false := by
  have hh : ∃ s1, getOrSet g { (initEmpty n : State A C) with temp := [item] } item (some a) = (some ⟨c, n⟩, s1) := by
    have hok : (addGlobal g ([] : Registry A C) ⟨c, n⟩ item).2 = true := by
      unfold addGlobal
      simp only [ha]
      by_cases hrs : rs = sv
      · simp [add, has, get, hrs]
      · simp [add, has, get, hrs, Ne.symm hrs]
    simp [getOrSet, initEmpty, get, hc, hk, hok]
  obtain ⟨s1, hh⟩ := hh
  refine ⟨⟨c, n⟩, s1, by simp only [save, List.map_cons, List.map_nil, saveItems, hh], rfl, ?_⟩
  intro l
  have hs := getOrSet_spec g _ item (some a) hh
  have hnone : get s1.registry (some item) a = none := by
    have : s1.registry = (addGlobal g ([] : Registry A C) ⟨c, n⟩ item).1 := by
      simp [getOrSet, initEmpty, get, hc, hk] at hh
      rw [← hh.2]
    rw [this]
    unfold addGlobal
    simp only [ha]
    by_cases hrs : rs = sv
    · simp [add, has, get, hrs, Ne.symm h1]
    · simp [add, has, get, hrs, Ne.symm hrs, Ne.symm h1, Ne.symm h2]
  rcases (hs.2.2 _ rfl).2 a rfl with hg | ⟨hg, hb, hn, hc', _⟩
  · rw [hnone] at hg; cases hg
  · have he := (run_ext g l s1).trans (ext_temp _ [item])
    have e1 := (he.closed item hb a hn).trans hg
    have e2 := (he.general a).trans hn
    have e3 := he.blocked item hb
    have e4 : (getOrSet g { run g s1 l with temp := [item] } item (some a)).1 = none := by
      simp only at e1 e2
      simp only [getOrSet, e1, e2, hc, hk]
      simp only [Blocked] at e3
      rcases hu : (run g s1 l).unregistered with _ | un
      · simp only [hu] at e3 ⊢; simp [e3]
      · simp only [hu] at e3 ⊢; simp [e3]
    rcases e5 : getOrSet g { run g s1 l with temp := [item] } item (some a) with ⟨o, s2⟩
    rw [e5] at e4
    simp only at e4
    subst e4
    simp [save, saveItems, e5]

/-! ## C56: finalization -/

theorem finalizeItems_spec : ∀ (l : List (String × Handler C)) (temp : List String) {done t}, finalizeItems temp l = (done, t) →
    (done.map (·.1)).Nodup ∧ (∀ i h, (i, h) ∈ done ↔ i ∈ temp ∧ l.find? (fun x => x.1 = i) = some (i, h)) ∧
      t = temp.filter fun i => i ∉ l.map (·.1)
  | [], temp, done, t, h => by
    simp only [finalizeItems, Prod.mk.injEq] at h
    obtain ⟨rfl, rfl⟩ := h
    refine ⟨by simp, by simp, ?_⟩
    rw [List.filter_eq_self.mpr]; simp
  | (j, k) :: l, temp, done, t, h => by
    by_cases hj : j ∈ temp
    · rcases hf : finalizeItems (temp.filter fun i => i ≠ j) l with ⟨d, t'⟩
      simp only [finalizeItems, hj, if_true, hf, Prod.mk.injEq] at h
      obtain ⟨rfl, rfl⟩ := h
      obtain ⟨h1, h2, h3⟩ := finalizeItems_spec l _ hf
      refine ⟨?_, ?_, ?_⟩
      · simp only [List.map_cons, List.nodup_cons]
        refine ⟨?_, h1⟩
        rw [List.mem_map]
        rintro ⟨⟨i, h⟩, hm, rfl⟩
        have := ((h2 i h).mp hm).1
        simp at this
      · intro i h
        rw [List.mem_cons, h2 i h]
        by_cases hij : i = j
        · subst hij
          simp [hj, eq_comm]
        · simp [hij, Ne.symm hij]
      · rw [h3]
        simp only [List.filter_filter]
        apply List.filter_congr
        intro x _
        by_cases hx : x = j <;> simp [hx]
    · simp only [finalizeItems, hj, if_false] at h
      obtain ⟨h1, h2, h3⟩ := finalizeItems_spec l _ h
      refine ⟨h1, ?_, ?_⟩
      · intro i h
        rw [h2 i h]
        by_cases hij : i = j
        · subst hij; simp [hj]
        · simp [Ne.symm hij]
      · rw [h3]
        apply List.filter_congr
        intro x hx
        have : x ≠ j := by rintro rfl; exact hj hx
        simp [this]

/-- Restorations leave the saved items alone. -/
theorem run_restores (g : Global A C) : ∀ (l : List (Op A C)) (s : State A C), (∀ op ∈ l, op.IsRestore) → (run g s l).temp = s.temp
  | [], _, _ => rfl
  | op :: l, s, h => by
    have e : run g s (op :: l) = run g (step g s op) l := rfl
    rw [e, run_restores g l _ fun x hx => h x (List.mem_cons_of_mem _ hx)]
    have := h op (by simp)
    cases op with
    | restore ex typeOf default args => exact (restore_ext g s ex typeOf default args).2
    | save => simp [Op.IsRestore] at this
    | finalize => simp [Op.IsRestore] at this

theorem firstHandler_some {r : Registry A C} {i : String} (h : ∃ x ∈ r, x.1.1 = some i) : ∃ k, firstHandler r i = some k := by
  obtain ⟨x, hx, hi⟩ := h
  have : (r.find? fun x => x.1.1 = some i).isSome := by
    rw [List.find?_isSome]; exact ⟨x, hx, by simpa using hi⟩
  obtain ⟨y, hy⟩ := Option.isSome_iff_exists.mp this
  exact ⟨y.2, by simp [firstHandler, hy]⟩

/-- The result of `finalize`, in terms of the registry. -/
theorem finalize_spec (s : State A C) (hne : s.temp ≠ []) (hall : ∀ i ∈ s.temp, ∃ x ∈ s.registry, x.1.1 = some i) :
    ∃ done, finalize s = (some done, { s with temp := [] }) ∧ (done.map (·.1)).Nodup ∧
      ∀ i h, (i, h) ∈ done ↔ i ∈ s.temp ∧ firstHandler s.registry i = some h := by
  rcases hf : finalizeItems s.temp (unique s.registry) with ⟨done, t⟩
  obtain ⟨h1, h2, h3⟩ := finalizeItems_spec _ _ hf
  have ht : t = [] := by
    rw [h3, List.filter_eq_nil_iff]
    intro i hi
    simp only [decide_not, Bool.not_eq_true', decide_eq_false_iff_not, Classical.not_not]
    obtain ⟨x, hx, hx1⟩ := hall i hi
    exact List.mem_map.mpr ⟨(i, x.2), (mem_unique _ _ _).mpr ⟨x, hx, hx1, rfl⟩, rfl⟩
  refine ⟨done, by simp [finalize, hne, hf, ht], h1, ?_⟩
  intro i h
  rw [h2 i h, ← unique_first]
  simp only [Option.map_eq_some_iff]
  constructor
  · rintro ⟨hi, hf⟩; exact ⟨hi, _, hf, rfl⟩
  · rintro ⟨hi, ⟨j, k⟩, hf, rfl⟩
    have := List.find?_some hf
    simp only [decide_eq_true_eq] at this
    subst this
    exact ⟨hi, hf⟩

/-- C56: after a save that succeeded — on whatever state, and after any restorations — `finalize` finalizes every saved item exactly once, nothing else,
and none is left; each with the first handler ever registered for the item. -/
theorem C56_finalize (g : Global A C) (s s' : State A C) (args : List (String × Option A)) (saved : List (String × Handler C))
    (hs : save g s args = (saved, true, s')) (hne : args ≠ []) (l : List (Op A C)) (hl : ∀ op ∈ l, op.IsRestore) :
    ∃ done s'', finalize (run g s' l) = (some done, s'') ∧ s''.temp = [] ∧ (done.map (·.1)).Nodup ∧
      (∀ i, i ∈ done.map (·.1) ↔ i ∈ args.map (·.1)) ∧ ∀ i h, (i, h) ∈ done → firstHandler s'.registry i = some h := by
  obtain ⟨_, h2, h3, h4⟩ := saveItems_spec g args _ hs
  have ht : (run g s' l).temp = args.map (·.1) := by rw [run_restores g l s' hl, h2]
  have hp := (run_ext g l s').grows
  have hreg : ∀ i ∈ args.map (·.1), ∃ x ∈ s'.registry, x.1.1 = some i := by
    intro i hi
    rw [← h3 rfl, List.mem_map] at hi
    obtain ⟨y, hy, rfl⟩ := hi
    obtain ⟨x, hx, hx1, _⟩ := h4 y hy
    exact ⟨x, hx, hx1⟩
  have hfirst : ∀ i ∈ args.map (·.1), firstHandler (run g s' l).registry i = firstHandler s'.registry i := by
    intro i hi
    obtain ⟨k, hk⟩ := firstHandler_some (hreg i hi)
    obtain ⟨t, ht⟩ := hp
    rw [hk, ← ht]
    simp only [firstHandler, Option.map_eq_some_iff] at hk
    obtain ⟨y, hy, rfl⟩ := hk
    simp [firstHandler, List.find?_append, hy]
  obtain ⟨done, e1, e2, e3⟩ := finalize_spec (run g s' l) (by rw [ht]; simpa using hne) (by
    rw [ht]; intro i hi
    obtain ⟨x, hx, hx1⟩ := hreg i hi
    exact ⟨x, hp.subset hx, hx1⟩)
  refine ⟨done, _, e1, rfl, e2, ?_, ?_⟩
  · intro i
    rw [List.mem_map]
    constructor
    · rintro ⟨⟨i, h⟩, hm, rfl⟩
      have := ((e3 i h).mp hm).1
      rwa [ht] at this
    · intro hi
      obtain ⟨k, hk⟩ := firstHandler_some (hreg i hi)
      exact ⟨(i, k), (e3 i k).mpr ⟨by rw [ht]; exact hi, by rw [hfirst i hi]; exact hk⟩, rfl⟩
  · intro i h hm
    have := (e3 i h).mp hm
    rw [ht] at this
    rw [← hfirst i this.1]; exact this.2

/-- `finalize` without a save raises. -/
theorem C56_finalize_nothing (s : State A C) (h : s.temp = []) : (finalize s).1 = none := by simp [finalize, h]

/-! ### One handler for each item -/

/-- What all calls keep, when the registry has one handler for each item. -/
structure Inv (s : State A C) : Prop where
  perItem : PerItem s.registry
  blocked : ∀ x ∈ s.registry, ∀ i, x.1.1 = some i → Blocked s i

theorem perItem_append {r l : Registry A C} {item : String} {h : Handler C} (hr : PerItem r) (hn : ∀ x ∈ r, x.1.1 ≠ some item)
    (hl : ∀ x ∈ l, x.1.1 = some item ∧ x.2 = h) : PerItem (r ++ l) := by
  refine ⟨?_, ?_⟩
  · intro x hx
    rcases List.mem_append.mp hx with hx | hx
    · exact hr.items x hx
    · rw [(hl x hx).1]; simp
  · intro x hx y hy e
    rcases List.mem_append.mp hx with hx | hx <;> rcases List.mem_append.mp hy with hy | hy
    · exact hr.one x hx y hy e
    · exact absurd (e.trans (hl y hy).1) (hn x hx)
    · exact absurd (e.symm.trans (hl x hx).1) (hn y hy)
    · rw [(hl x hx).2, (hl y hy).2]

theorem inv_getOrSet {g : Global A C} {s : State A C} (hi : Inv s) (item : String) (oa : Option A) : Inv (getOrSet g s item oa).2 := by
  cases oa with
  | none => exact hi
  | some a =>
    simp only [getOrSet]
    rcases h1 : get s.registry (some item) a with _ | h
    · simp only
      rcases h2 : get s.registry none a with _ | h
      · simp only
        rcases h3 : g.cls a with _ | c
        · exact hi
        · simp only
          split
          · exact hi
          · have key : ∀ (un : Option (List String)) (df : List String), (∀ i, Blocked s i → i ≠ item) →
                (∀ i, Blocked s i → Blocked (⟨s.registry, un, df, s.next + 1, s.temp⟩ : State A C) i) →
                Blocked (⟨s.registry, un, df, s.next + 1, s.temp⟩ : State A C) item →
                Inv ⟨(addGlobal g s.registry ⟨c, s.next⟩ item).1, un, df, s.next + 1, s.temp⟩ := by
              intro un df hb1 hb2 hb3
              obtain ⟨l, hl, hl2, _⟩ := addGlobal_spec g s.registry ⟨c, s.next⟩ item
              refine ⟨?_, ?_⟩
              · simp only [hl]
                refine perItem_append hi.perItem ?_ hl2
                intro x hx e
                exact hb1 _ (hi.blocked x hx item e) rfl
              · simp only [hl]
                intro x hx i e
                rcases List.mem_append.mp hx with hx | hx
                · exact hb2 i (hi.blocked x hx i e)
                · rw [(hl2 x hx).1] at e; cases e; exact hb3
            rcases hun : s.unregistered with _ | un
            · simp only
              split
              · exact ⟨hi.perItem, fun x hx i e => by have := hi.blocked x hx i e; simpa [Blocked, hun] using this⟩
              · rename_i hni
                refine key none (item :: s.deferred) ?_ ?_ ?_
                · intro i hi; simp only [Blocked, hun] at hi; rintro rfl; exact hni hi
                · intro i hi; simp only [Blocked, hun] at hi; simp only [Blocked]; exact List.mem_cons_of_mem _ hi
                · simp [Blocked]
            · simp only
              split
              · rename_i hi'
                refine key (some (un.filter fun i => i ≠ item)) s.deferred ?_ ?_ ?_
                · intro i hi; simp only [Blocked, hun] at hi; rintro rfl; exact hi hi'
                · intro i hi; simp only [Blocked, hun] at hi; simp only [Blocked, List.mem_filter]; exact fun h => hi h.1
                · simp [Blocked]
              · exact ⟨hi.perItem, fun x hx i e => by have := hi.blocked x hx i e; simpa [Blocked, hun] using this⟩
      · exfalso
        simp only [get, Option.map_eq_some_iff] at h2
        obtain ⟨x, hx, _⟩ := h2
        have := List.find?_some hx
        simp only [decide_eq_true_eq] at this
        exact hi.perItem.items x (List.mem_of_find?_eq_some hx) (by rw [this])
    · exact hi

theorem inv_temp {s : State A C} (hi : Inv s) (t : List String) : Inv { s with temp := t } := ⟨hi.perItem, hi.blocked⟩

theorem inv_saveItems {g : Global A C} : ∀ (l : List (String × Option A)) {s : State A C}, Inv s → Inv (saveItems g s l).2.2
  | [], s, h => h
  | (i, a) :: l, s, h => by
    have h1 := inv_getOrSet (g := g) h i a
    rcases hg : getOrSet g s i a with ⟨_ | k, s1⟩
    · rw [hg] at h1; simpa [saveItems, hg] using h1
    · rw [hg] at h1
      simp only [saveItems, hg]
      exact inv_saveItems l h1

theorem inv_step {g : Global A C} {s : State A C} (h : Inv s) (op : Op A C) : Inv (step g s op) := by
  cases op with
  | save args => exact inv_saveItems args (inv_temp h _)
  | restore ex typeOf default args =>
    simp only [step, restore]
    have key : ∀ l, Inv (restoreItems g ex s l).2.2 := by
      intro l
      obtain ⟨l', _, _, e⟩ := restoreItems_save g ex l s
      rw [e]; exact inv_saveItems l' h
    split
    · split
      · exact h
      · exact key _
    · exact key _
  | finalize =>
    simp only [step, finalize]
    split
    · exact h
    · exact inv_temp h _

theorem inv_run {g : Global A C} : ∀ (l : List (Op A C)) {s : State A C}, Inv s → Inv (run g s l)
  | [], _, h => h
  | op :: l, _, h => inv_run l (inv_step h op)

theorem go_inv (g : Global A C) : ∀ (l : List (String × Option (Handler C))) (r r' : Registry A C), (l.map (·.1)).Nodup → PerItem r →
    (∀ x ∈ l, ∀ y ∈ r, y.1.1 ≠ some x.1) → initItems.go g r l = some r' →
    PerItem r' ∧ ∀ y ∈ r', y ∈ r ∨ ∃ i h, (i, some h) ∈ l ∧ y.1.1 = some i
  | [], r, r', _, hr, _, h => by cases h; exact ⟨hr, fun y hy => .inl hy⟩
  | (i, none) :: l, r, r', hn, hr, hf, h => by
    simp only [initItems.go] at h
    simp only [List.map_cons, List.nodup_cons] at hn
    obtain ⟨h1, h2⟩ := go_inv g l r r' hn.2 hr (fun x hx => hf x (List.mem_cons_of_mem _ hx)) h
    refine ⟨h1, fun y hy => (h2 y hy).imp_right ?_⟩
    rintro ⟨j, k, hm, e⟩; exact ⟨j, k, List.mem_cons_of_mem _ hm, e⟩
  | (i, some k) :: l, r, r', hn, hr, hf, h => by
    simp only [List.map_cons, List.nodup_cons] at hn
    obtain ⟨t, ht, ht2, _⟩ := addGlobal_spec g r k i
    rcases ha : addGlobal g r k i with ⟨r1, _ | _⟩
    · simp only [initItems.go, ha] at h; cases h
    · simp only [initItems.go, ha] at h
      rw [ha] at ht
      simp only at ht
      subst ht
      obtain ⟨h1, h2⟩ := go_inv g l _ r' hn.2 (perItem_append hr (hf (i, some k) (by simp)) ht2) (by
        intro x hx y hy
        rcases List.mem_append.mp hy with hy | hy
        · exact hf x (List.mem_cons_of_mem _ hx) y hy
        · rw [(ht2 y hy).1]
          intro e; cases e
          exact hn.1 (List.mem_map_of_mem (f := (·.1)) hx)) h
      refine ⟨h1, fun y hy => ?_⟩
      rcases h2 y hy with h3 | ⟨j, k', hm, e⟩
      · rcases List.mem_append.mp h3 with h3 | h3
        · exact .inl h3
        · exact .inr ⟨i, k, by simp, (ht2 y h3).1⟩
      · exact .inr ⟨j, k', List.mem_cons_of_mem _ hm, e⟩

theorem eq_of_nodup_keys {α β} : ∀ {l : List (α × β)}, (l.map (·.1)).Nodup → ∀ {i : α} {x y : β}, (i, x) ∈ l → (i, y) ∈ l → x = y
  | [], _, _, _, _, h, _ => by simp at h
  | z :: l, hn, i, x, y, h1, h2 => by
    simp only [List.map_cons, List.nodup_cons] at hn
    rcases List.mem_cons.mp h1 with h1 | h1 <;> rcases List.mem_cons.mp h2 with h2 | h2
    · rw [← h1] at h2; exact ((Prod.mk.inj h2).2).symm
    · exact absurd (List.mem_map.mpr ⟨_, h2, by rw [← h1]⟩) hn.1
    · exact absurd (List.mem_map.mpr ⟨_, h1, by rw [← h2]⟩) hn.1
    · exact eq_of_nodup_keys hn.2 h1 h2

theorem made_inv {g : Global A C} {s : State A C} (h : Made g s) : Inv s := by
  cases h with
  | empty n => exact ⟨⟨by simp [initEmpty], by simp [initEmpty]⟩, by simp [initEmpty]⟩
  | items hn hs =>
    rename_i n names items
    simp only [initItems, Option.map_eq_some_iff] at hs
    obtain ⟨r, hr, rfl⟩ := hs
    obtain ⟨h1, h2⟩ := go_inv g items [] r hn ⟨by simp, by simp⟩ (by simp) hr
    refine ⟨h1, ?_⟩
    intro x hx i e
    rcases h2 x hx with h3 | ⟨j, k, hm, e'⟩
    · simp at h3
    · rw [e] at e'; cases e'
      simp only [Blocked, List.mem_append, List.mem_filter, List.mem_map, not_or, not_and, not_exists]
      refine ⟨?_, ?_⟩
      · intro _
        have : (items.map (·.1)).contains i = true := by
          rw [List.contains_iff_mem]; exact List.mem_map.mpr ⟨_, hm, rfl⟩
        rw [this]; simp
      · rintro ⟨j, o⟩ hjo rfl
        have : o = some k := eq_of_nodup_keys hn hjo.1 hm
        rw [this] at hjo
        simp at hjo
  | registry hp hs =>
    rename_i n r
    simp only [initRegistry, Option.map_eq_some_iff] at hs
    obtain ⟨r', hr, rfl⟩ := hs
    have := C56_registry_copy _ _ hr
    subst this
    refine ⟨hp, ?_⟩
    intro x hx i e
    simp only [Blocked, List.mem_map]
    exact ⟨(i, x.2), (mem_unique _ _ _).mpr ⟨x, hx, e, rfl⟩, rfl⟩

/-- C56: with a composite handler made without arguments, with items and handlers, or with a registry that has one handler for each item, each saved
item is finalized with the handler that saved it — after any history, and any restorations in between. -/
theorem C56_finalize_handler (g : Global A C) (s0 s' : State A C) (hm : Made g s0) (history : List (Op A C)) (args : List (String × Option A))
    (saved : List (String × Handler C)) (hs : save g (run g s0 history) args = (saved, true, s')) (hne : args ≠ [])
    (l : List (Op A C)) (hl : ∀ op ∈ l, op.IsRestore) :
    ∃ done s'', finalize (run g s' l) = (some done, s'') ∧ (done.map (·.1)).Nodup ∧ ∀ i h, (i, h) ∈ done ↔ (i, h) ∈ saved := by
  obtain ⟨done, s'', h1, _, h2, h3, h4⟩ := C56_finalize g _ s' args saved hs hne l hl
  have hinv : Inv s' := by
    have := inv_saveItems (g := g) args (inv_temp (inv_run (g := g) history (made_inv hm)) (args.map (·.1)))
    simp only [save] at hs
    rw [hs] at this
    exact this
  obtain ⟨_, _, e3, e4⟩ := saveItems_spec g args _ hs
  have hfirst : ∀ y ∈ saved, firstHandler s'.registry y.1 = some y.2 := by
    intro y hy
    obtain ⟨x, hx, hx1, hx2⟩ := e4 y hy
    obtain ⟨k, hk⟩ := firstHandler_some ⟨x, hx, hx1⟩
    have hk' := hk
    simp only [firstHandler, Option.map_eq_some_iff] at hk'
    obtain ⟨z, hz, rfl⟩ := hk'
    have hz1 := List.find?_some hz
    simp only [decide_eq_true_eq] at hz1
    rw [hk, ← hx2, hinv.perItem.one z (List.mem_of_find?_eq_some hz) x hx (hz1.trans hx1.symm)]
  refine ⟨done, s'', h1, h2, ?_⟩
  intro i h
  constructor
  · intro hd
    have hi := (h3 i).mp (List.mem_map_of_mem (f := (·.1)) hd)
    rw [← e3 rfl, List.mem_map] at hi
    obtain ⟨⟨j, k⟩, hy, rfl⟩ := hi
    have := hfirst _ hy
    simp only at this
    rw [h4 _ _ hd] at this
    cases this
    exact hy
  · intro hd
    have hi : i ∈ args.map (·.1) := by rw [← e3 rfl]; exact List.mem_map_of_mem (f := (·.1)) hd
    obtain ⟨⟨j, k⟩, hy, rfl⟩ := List.mem_map.mp ((h3 i).mpr hi)
    have := hfirst _ hd
    simp only at this
    rw [h4 _ _ hy] at this
    cases this
    exact hy

/-- C56 fails when the registry has two handlers for an item: an item saved with the second is finalized with the first. -/
theorem C56_finalize_fails (g : Global A C) (item : String) (a b : A) (h k : Handler C) (hab : a ≠ b) (n : Nat) :
    ∃ s s', initRegistry [((some item, a), h), ((some item, b), k)] n = some s ∧ save g s [(item, some b)] = ([(item, k)], true, s') ∧
      (finalize s').1 = some [(item, h)] := by
  refine ⟨⟨[((some item, a), h), ((some item, b), k)], none, (unique [((some item, a), h), ((some item, b), k)]).map (·.1), n, []⟩,
    ⟨[((some item, a), h), ((some item, b), k)], none, (unique [((some item, a), h), ((some item, b), k)]).map (·.1), n, [item]⟩, ?_, ?_, ?_⟩
  · simp [initRegistry, copyInto, add, has, get, hab]
  · simp [save, saveItems, getOrSet, get, hab]
  · by_cases hk : k = h
    · simp [finalize, finalizeItems, unique, hk]
    · simp [finalize, finalizeItems, unique, hk]

/-- C56 fails likewise for a registry with handlers for args alone: the handlers of the args for saving and restoring are two, and after a restoration
the save is finalized with the handler that restored. -/
theorem C56_general_fails (g : Global A C) (item : String) (sv rs : A) (h k : Handler C) (hab : sv ≠ rs) (n : Nat) :
    ∃ s s1 s2, initRegistry [((none, sv), h), ((none, rs), k)] n = some s ∧
      restoreItems g [item] s [(item, some rs)] = ([(item, k)], true, s1) ∧
      save g s1 [(item, some sv)] = ([(item, h)], true, s2) ∧ (finalize s2).1 = some [(item, k)] := by
  refine ⟨⟨[((none, sv), h), ((none, rs), k)], none, [], n, []⟩,
    ⟨[((none, sv), h), ((none, rs), k), ((some item, rs), k)], none, [], n, []⟩,
    ⟨[((none, sv), h), ((none, rs), k), ((some item, rs), k), ((some item, sv), h)], none, [], n, [item]⟩, ?_, ?_, ?_, ?_⟩
  · simp [initRegistry, copyInto, add, has, get, hab, unique]
  · simp [restoreItems, getOrSet, get, hab, add, has]
  · simp [save, saveItems, getOrSet, get, Ne.symm hab, add, has]
  · by_cases hk : h = k
    · simp [finalize, finalizeItems, unique, hk]
    · simp [finalize, finalizeItems, unique, hk]

/-! ### The handlers named in the checkpoint -/

/-- The checkpoint names, for each saved item, the class of the handler that saved it: under the conditions of `C56_finalize_handler`. -/
theorem C56_recorded_handler (g : Global A C) (typestr : C → String) (s0 s' : State A C) (hm : Made g s0) (history : List (Op A C))
    (args : List (String × Option A)) (saved : List (String × Handler C)) (hs : save g (run g s0 history) args = (saved, true, s'))
    (i : String) (h : Handler C) (hi : (i, h) ∈ saved) : itemTypeStr typestr s' (fun _ => none) i = some (typestr h.cls) := by
  have hinv : Inv s' := by
    have := inv_saveItems (g := g) args (inv_temp (inv_run (g := g) history (made_inv hm)) (args.map (·.1)))
    simp only [save] at hs
    rw [hs] at this
    exact this
  obtain ⟨_, _, _, e4⟩ := saveItems_spec g args _ hs
  obtain ⟨x, hx, hx1, hx2⟩ := e4 _ hi
  simp only at hx1 hx2
  have hb := hinv.blocked x hx i hx1
  have hu : i ∉ s'.unregistered.getD [] := by
    rcases hu : s'.unregistered with _ | un
    · simp
    · simp only [Blocked, hu] at hb; simpa using hb
  have hsome : ((unique s'.registry).reverse.find? fun x => x.1 = i).isSome := by
    rw [List.find?_isSome]
    exact ⟨(i, h), List.mem_reverse.mpr ((mem_unique _ _ _).mpr ⟨x, hx, hx1, hx2⟩), by simp⟩
  obtain ⟨⟨j, k⟩, hy⟩ := Option.isSome_iff_exists.mp hsome
  have hj := List.find?_some hy
  simp only [decide_eq_true_eq] at hj
  subst hj
  obtain ⟨z, hz, hz1, hz2⟩ := (mem_unique _ _ _).mp (List.mem_reverse.mp (List.mem_of_find?_eq_some hy))
  have hkh : k = h := by
    rw [← hz2, ← hx2]
    exact hinv.perItem.one z hz x hx (hz1.trans hx1.symm)
  simp [itemTypeStr, itemHandler, hu, hy, hkh]

/-- A name that is in the checkpoint already is kept. -/
theorem C56_recorded_kept (typestr : C → String) (s : State A C) (saved : String → Option String) (i t : String) (h : saved i = some t) :
    itemTypeStr typestr s saved i = some t := by simp [itemTypeStr, h]

/-- C56 fails when the registry has two handlers for an item: an item saved with the first is recorded with the class of the second, although it is
finalized with the first. -/
theorem C56_recorded_fails (g : Global A C) (typestr : C → String) (item : String) (a b : A) (h k : Handler C) (hab : a ≠ b) (hhk : h ≠ k) (n : Nat) :
    ∃ s s', initRegistry [((some item, a), h), ((some item, b), k)] n = some s ∧ save g s [(item, some a)] = ([(item, h)], true, s') ∧
      itemTypeStr typestr s' (fun _ => none) item = some (typestr k.cls) := by
  refine ⟨⟨[((some item, a), h), ((some item, b), k)], none, (unique [((some item, a), h), ((some item, b), k)]).map (·.1), n, []⟩,
    ⟨[((some item, a), h), ((some item, b), k)], none, (unique [((some item, a), h), ((some item, b), k)]).map (·.1), n, [item]⟩, ?_, ?_, ?_⟩
  · simp [initRegistry, copyInto, add, has, get, hab]
  · simp [save, saveItems, getOrSet, get]
  · simp [itemTypeStr, itemHandler, unique, Ne.symm hhk]

/-! ### Restoring -/

/-- A restoration that succeeds gives exactly the items asked for, all of which are in the checkpoint. -/
theorem C56_restore_items (g : Global A C) (s s' : State A C) (existing : List String) (typeOf : String → Option C) (default : A → Bool)
    (args : List (String × Option A)) (hne : args ≠ []) (done : List (String × Handler C))
    (h : restore g s existing typeOf default args = (done, true, s')) : done.map (·.1) = args.map (·.1) ∧ ∀ x ∈ args, x.1 ∈ existing := by
  simp only [restore, hne, if_false] at h
  exact (restoreItems_spec g existing args s h).2.2.1 rfl

theorem defaultArgs_keys (g : Global A C) (s : State A C) (typeOf : String → Option C) (default : A → Bool) : ∀ (l : List String) {args},
    defaultArgs g s typeOf default l = some args → args.map (·.1) = l
  | [], args, h => by simp only [defaultArgs, Option.some.injEq] at h; subst h; rfl
  | i :: l, args, h => by
    have key : ∀ c, ((g.args c).bind fun x => if default x.2 = true then (defaultArgs g s typeOf default l).bind fun r => pure ((i, some x.2) :: r)
        else none) = some args → args.map (·.1) = i :: l := by
      intro c h
      simp only [Option.bind_eq_some_iff, Prod.exists] at h
      obtain ⟨sv, a, _, h⟩ := h
      split at h
      · simp only [Option.bind_eq_some_iff, Option.pure_def, Option.some.injEq] at h
        obtain ⟨r, hr, rfl⟩ := h
        simp [defaultArgs_keys g s typeOf default l hr]
      · cases h
    simp only [defaultArgs, Option.bind_eq_bind] at h
    split at h
    · rw [Option.bind_eq_some_iff] at h
      obtain ⟨c, _, h⟩ := h
      exact key c h
    · cases h
    · exact key _ h

/-- A restoration without arguments that succeeds gives all the items in the checkpoint. -/
theorem C56_restore_all (g : Global A C) (s s' : State A C) (existing : List String) (typeOf : String → Option C) (default : A → Bool)
    (done : List (String × Handler C)) (h : restore g s existing typeOf default [] = (done, true, s')) : done.map (·.1) = existing := by
  simp only [restore, if_true] at h
  split at h
  · simp at h
  · rename_i args ha
    rw [((restoreItems_spec g existing args s h).2.2.1 rfl).1, defaultArgs_keys g s typeOf default _ ha]

/-- An item that is not in the checkpoint makes the restoration raise. -/
theorem C56_restore_missing (g : Global A C) (s : State A C) (existing : List String) (typeOf : String → Option C) (default : A → Bool)
    (args : List (String × Option A)) (x : String × Option A) (hx : x ∈ args) (hm : x.1 ∉ existing) :
    (restore g s existing typeOf default args).2.1 = false := by
  have hne : args ≠ [] := by rintro rfl; simp at hx
  rcases hr : restore g s existing typeOf default args with ⟨done, ok, s'⟩
  cases ok
  · rfl
  · exact absurd ((C56_restore_items g s s' existing typeOf default args hne done hr).2 x hx) hm

/-! ## The hypotheses are met -/

/-- Args classes 0 (save), 1 (restore) of handler class 0, and a second class 2 for saving. -/
def exGlobal : Global Nat Nat := ⟨[(0, 0), (2, 0)], [(1, 0)], fun _ => true⟩

example : exGlobal.args 0 = some (0, 1) ∧ exGlobal.cls 2 = some 0 ∧ (2 ≠ 0 ∧ 2 ≠ 1) := by decide
example : (exGlobal.save.map (·.1)).Nodup ∧ (2, 0) ∈ exGlobal.save ∧ (∀ c', (1, c') ∉ exGlobal.save) ∧ (1, 0) ∈ exGlobal.restore := by
  refine ⟨by decide, by decide, ?_, by decide⟩
  intro c' h; simp [exGlobal] at h
example : (save exGlobal (initEmpty 5) [("a", some 0), ("b", some 0)]).1 = [("a", ⟨0, 5⟩), ("b", ⟨0, 6⟩)] ∧
    (save exGlobal (initEmpty 5) [("a", some 0), ("b", some 0)]).2.1 = true := by decide
example : Uses exGlobal (initEmpty 5) "a" 0 ⟨0, 5⟩ (.save [("a", some 0), ("b", some 0)]) := .save (by decide) (by decide) (by decide)
example : (finalize (save exGlobal (initEmpty 5) [("a", some 0), ("b", some 0)]).2.2).1 = some [("a", ⟨0, 5⟩), ("b", ⟨0, 6⟩)] := by decide
example : PerItem [((some "a", 0), (⟨0, 1⟩ : Handler Nat)), ((some "a", 1), ⟨0, 1⟩), ((some "b", 0), ⟨0, 2⟩)] := ⟨by decide, by decide⟩
example : ∃ s, initItems exGlobal 3 ["c"] [("a", some ⟨0, 1⟩), ("b", none)] = some s := ⟨_, rfl⟩
example : (restore exGlobal (initEmpty 5) ["a"] (fun _ => some 0) (fun _ => true) []).1 = [("a", ⟨0, 5⟩)] := by decide

end Verif.Composite
