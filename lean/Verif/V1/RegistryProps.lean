import Verif.V1.Registry

/-!
# C81: the handler that saved is the handler that loads
-/
namespace Verif.V1

set_option linter.unusedSectionVars false

variable {H V A : Type} [DecidableEq H]

/-! ## Specification -/

/-- The registries that registering can produce. -/
inductive Built : Registry H → Prop where
  | empty : Built Registry.empty
  | add (r r' : Registry H) (h : H) (name : Option String) (sec : Option (List String)) :
      Built r → r.add h name sec = .ok r' → Built r'

/-- An earlier entry does not stand in the way of a later one: a later entry with a non-empty name has a
name of its own; any other later entry has a class of its own. -/
def Compatible (a b : H × Option String) : Prop :=
  match b.2 with
  | some n => if n ≠ "" then a.2 ≠ some n else a.1 ≠ b.1
  | none => a.1 ≠ b.1

/-- The class is registered, and no other registered class uses its type string. -/
def Distinct (W : World H V A) (r : Registry H) (h : H) : Prop :=
  W.typestr h ≠ "" ∧ (∃ n, (h, n) ∈ r.entries) ∧
    ∀ e ∈ r.entries, e.1 ≠ h → W.typestr e.1 ≠ W.typestr h ∧ W.typestr h ∉ r.secondary e.1

/-! ## Registration -/

theorem taken_iff (r : Registry H) (h : H) (name : Option String) :
    r.taken h name = false ↔ ∀ e ∈ r.entries, Compatible e (h, name) := by
  unfold Registry.taken Compatible
  cases name with
  | none => simp [List.any_eq_false]
  | some n =>
    by_cases hn : n = "" <;> simp [hn, Registry.has, List.any_eq_false]

/-- C81: a registration is accepted exactly when its name is new, or, for a registration without a name,
when its class is new; an accepted one is added at the end and changes no other. -/
theorem C81_add (r : Registry H) (h : H) (name : Option String) (sec : Option (List String)) :
    ((∃ r', r.add h name sec = .ok r') ↔ ∀ e ∈ r.entries, Compatible e (h, name)) ∧
    ∀ r', r.add h name sec = .ok r' → r'.entries = r.entries ++ [(h, name)] ∧
      (∀ x, x ≠ h → r'.secondary x = r.secondary x) ∧
      (∀ s, sec = some s → r'.secondary h = s) ∧ (sec = none → r'.secondary h = r.secondary h) := by
  rw [← taken_iff]
  unfold Registry.add
  constructor
  · cases r.taken h name <;> simp
  · intro r' hr
    cases ht : r.taken h name
    · rw [ht] at hr
      simp only [Bool.false_eq_true, if_false, Except.ok.injEq] at hr
      subst hr
      refine ⟨rfl, ?_, ?_, ?_⟩
      · intro x hx
        cases sec <;> simp [hx]
      · rintro s rfl; simp
      · rintro rfl; rfl
    · rw [ht] at hr; cases hr

/-- C81: in every registry that can be built, entries do not stand in each other's way: a name belongs to
one entry. -/
theorem C81_unique (r : Registry H) (hb : Built r) : r.entries.Pairwise Compatible := by
  induction hb with
  | empty => exact List.Pairwise.nil
  | add r r' h name sec _ hadd ih =>
    obtain ⟨h1, h2⟩ := C81_add r h name sec
    rw [(h2 r' hadd).1, List.pairwise_append]
    refine ⟨ih, by simp, ?_⟩
    intro a ha b hb
    simp only [List.mem_singleton] at hb
    subst hb
    exact h1.1 ⟨r', hadd⟩ a ha

theorem built_secondary (r : Registry H) (hb : Built r) (x : H) (hx : ∀ e ∈ r.entries, e.1 ≠ x) :
    r.secondary x = [] := by
  induction hb with
  | empty => rfl
  | add r r' h name sec _ hadd ih =>
    obtain ⟨_, h2⟩ := C81_add r h name sec
    obtain ⟨e1, e2, _, _⟩ := h2 r' hadd
    rw [e1] at hx
    have hne : x ≠ h := fun he => hx (h, name) (by simp) he.symm
    rw [e2 x hne]
    exact ih fun e he => hx e (List.mem_append_left _ he)

theorem addAll_ok (sec : H → List String) (post : List (H × Option String)) :
    ∀ (pre : List (H × Option String)) (s : H → List String), (pre ++ post).Pairwise Compatible →
    ∃ s', addAll ⟨pre, s⟩ sec post = .ok ⟨pre ++ post, s'⟩ ∧
      (∀ x, (∃ e ∈ post, e.1 = x) → s' x = sec x) ∧ (∀ x, (∀ e ∈ post, e.1 ≠ x) → s' x = s x) := by
  induction post with
  | nil => intro pre s _; exact ⟨s, by simp [addAll], by simp, by simp⟩
  | cons e post ih =>
    intro pre s hp
    obtain ⟨h, name⟩ := e
    have ht : (Registry.mk pre s).taken h name = false := by
      rw [taken_iff]
      intro a ha
      rw [List.pairwise_append] at hp
      exact hp.2.2 a ha (h, name) (by simp)
    have hp' : ((pre ++ [(h, name)]) ++ post).Pairwise Compatible := by simpa using hp
    obtain ⟨s', h1, h2, h3⟩ := ih (pre ++ [(h, name)]) (fun x => if x = h then sec h else s x) hp'
    refine ⟨s', ?_, ?_, ?_⟩
    · simp only [addAll, Registry.add, ht, Bool.false_eq_true, if_false]
      rw [h1]
      simp
    · rintro x ⟨e, he, rfl⟩
      by_cases hx : ∃ e' ∈ post, e'.1 = e.1
      · exact h2 _ hx
      · rcases List.mem_cons.1 he with rfl | he
        · rw [h3 _ (fun e' he' hc => hx ⟨e', he', hc⟩)]
          simp
        · exact absurd ⟨e, he, rfl⟩ hx
    · intro x hx
      rw [h3 x fun e he => hx e (List.mem_cons_of_mem _ he)]
      have : x ≠ h := fun hc => hx (h, name) (by simp) hc.symm
      simp [this]

/-- C81: a local registry made from any registry alone, and the local copy of the global one, have the
same entries in the same order with the same secondary type strings. -/
theorem C81_copy (g r : Registry H) (hb : Built r) :
    (∃ r', localRegistry g (some r) false = .ok r' ∧ r'.entries = r.entries ∧
      ∀ x, r'.secondary x = r.secondary x) ∧
    (∃ r', localRegistry r none true = .ok r' ∧ r'.entries = r.entries ∧
      ∀ x, r'.secondary x = r.secondary x) := by
  obtain ⟨s', h1, h2, h3⟩ := addAll_ok r.secondary r.entries [] (fun _ => []) (by
    simpa using C81_unique r hb)
  have hs : ∀ x, s' x = r.secondary x := by
    intro x
    by_cases hx : ∃ e ∈ r.entries, e.1 = x
    · exact h2 x hx
    · have hx' : ∀ e ∈ r.entries, e.1 ≠ x := fun e he hc => hx ⟨e, he, hc⟩
      rw [h3 x hx', built_secondary r hb x hx']
  rw [List.nil_append] at h1
  constructor
  · exact ⟨⟨r.entries, s'⟩, h1, rfl, hs⟩
  · refine ⟨⟨r.entries, s'⟩, ?_, rfl, hs⟩
    unfold localRegistry
    simp only [if_true]
    rw [show (Registry.empty : Registry H) = ⟨[], fun _ => []⟩ from rfl, h1]

/-! ## Resolution for saving -/

theorem get_iff (r : Registry H) (hb : Built r) (name : String) (hn : name ≠ "") (h : H) :
    r.get name = some h ↔ (h, some name) ∈ r.entries := by
  have hu := C81_unique r hb
  unfold Registry.get
  constructor
  · intro hg
    obtain ⟨e, he, rfl⟩ := Option.map_eq_some_iff.1 hg
    have h1 := List.mem_of_find?_eq_some he
    have h2 := List.find?_some he
    rw [decide_eq_true_eq] at h2
    rw [← h2]
    exact h1
  · intro hm
    cases hf : r.entries.find? fun e => decide (e.2 = some name) with
    | none =>
      have := List.find?_eq_none.1 hf _ hm
      simp at this
    | some e =>
      have h1 := List.mem_of_find?_eq_some hf
      have h2 := List.find?_some hf
      rw [decide_eq_true_eq] at h2
      by_cases hee : e = (h, some name)
      · subst hee; rfl
      · exfalso
        have hc : Compatible e (h, some name) ∨ Compatible (h, some name) e := by
          have : ∀ (l : List (H × Option String)), l.Pairwise Compatible → e ∈ l → (h, some name) ∈ l →
              Compatible e (h, some name) ∨ Compatible (h, some name) e := by
            intro l
            induction l with
            | nil => intro _ h; cases h
            | cons x l ih =>
              intro hp ha hb
              rw [List.pairwise_cons] at hp
              rcases List.mem_cons.1 ha with rfl | ha
              · rcases List.mem_cons.1 hb with hb | hb
                · exact absurd hb.symm hee
                · exact Or.inl (hp.1 _ hb)
              · rcases List.mem_cons.1 hb with hb | hb
                · exact Or.inr (hb ▸ hp.1 _ ha)
                · exact ih hp.2 ha hb
          exact this _ hu h1 hm
        rcases hc with hc | hc
        · simp only [Compatible, hn, ne_eq, not_false_eq_true, if_true] at hc
          exact hc h2
        · simp only [Compatible, h2, hn, ne_eq, not_false_eq_true, if_true] at hc
          exact hc trivial

theorem get_none_iff (r : Registry H) (name : String) :
    r.get name = none ↔ ∀ h, (h, some name) ∉ r.entries := by
  unfold Registry.get
  rw [Option.map_eq_none_iff, List.find?_eq_none]
  constructor
  · intro h1 h hm
    have := h1 _ hm
    simp at this
  · intro h1 e he hc
    rw [decide_eq_true_eq] at hc
    exact h1 e.1 (by rw [← hc]; exact he)

theorem possible_last (W : World H V A) (r : Registry H) (ok : H → Bool)
    (pre post : List (H × Option String)) (h : H) (he : r.entries = pre ++ (h, none) :: post)
    (hc : ∀ e ∈ r.entries, W.constructible e.1 = true) (hok : ok h = true)
    (hpost : ∀ e ∈ post, e.2 = none → ok e.1 = false) :
    ∃ hs, possible W r ok = .ok hs ∧ hs.getLast? = some h := by
  unfold possible
  rw [if_pos (List.all_eq_true.2 hc)]
  refine ⟨_, rfl, ?_⟩
  rw [he, List.filter_append, List.filter_cons]
  simp only [Option.isNone_none, Bool.true_and, hok, if_true]
  have : post.filter (fun e => e.2.isNone && ok e.1) = [] := by
    rw [List.filter_eq_nil_iff]
    intro e hem hcon
    rw [Bool.and_eq_true, Option.isNone_iff_eq_none] at hcon
    rw [hpost e hem hcon.1] at hcon
    exact absurd hcon.2 (by simp)
  rw [this]
  simp

/-- C81: a value is saved by the handler registered for its name, whether or not that handler accepts it,
unless the value saves itself. -/
theorem C81_save_named (W : World H V A) (r : Registry H) (hb : Built r) (name : String)
    (hn : name ≠ "") (h : H) (hm : (h, some name) ∈ r.entries)
    (hc : ∀ e ∈ r.entries, W.constructible e.1 = true) (v : V) (hv : W.statefulV v = false) :
    resolveSave W r name (some v) = .ok h := by
  have hall : (r.entries.all fun e => W.constructible e.1) = true := List.all_eq_true.2 hc
  simp only [resolveSave, possible, hall, if_true, hv, (get_iff r hb name hn h).2 hm, construct, hc _ hm, if_true]

/-- C81: a value whose name has no handler is saved by the handler, among those registered for all names
that accept it, that was registered last. -/
theorem C81_save_latest (W : World H V A) (r : Registry H) (name : String)
    (hnone : ∀ h, (h, some name) ∉ r.entries) (pre post : List (H × Option String)) (h : H)
    (he : r.entries = pre ++ (h, none) :: post)
    (hc : ∀ e ∈ r.entries, W.constructible e.1 = true) (v : V) (hok : W.canSave h v = true)
    (hpost : ∀ e ∈ post, e.2 = none → W.canSave e.1 v = false) :
    resolveSave W r name (some v) = .ok h := by
  obtain ⟨hs, h1, h2⟩ := possible_last W r (fun h => W.canSave h v) pre post h he hc hok hpost
  simp only [resolveSave, h1, h2, (get_none_iff r name).2 hnone]
  cases W.statefulV v <;> rfl

/-- C81: a value that saves itself is saved by the latest accepting handler registered for all names,
even when another handler is registered for its name. -/
theorem C81_save_stateful (W : World H V A) (r : Registry H) (name : String)
    (pre post : List (H × Option String)) (h : H)
    (he : r.entries = pre ++ (h, none) :: post)
    (hc : ∀ e ∈ r.entries, W.constructible e.1 = true) (v : V) (hv : W.statefulV v = true)
    (hok : W.canSave h v = true) (hpost : ∀ e ∈ post, e.2 = none → W.canSave e.1 v = false) :
    resolveSave W r name (some v) = .ok h := by
  obtain ⟨hs, h1, h2⟩ := possible_last W r (fun h => W.canSave h v) pre post h he hc hok hpost
  simp only [resolveSave, h1, h2, hv]

theorem resolveSave_mem (W : World H V A) (r : Registry H) (name : String) (v : Option V) (h : H)
    (hs : resolveSave W r name v = .ok h) :
    (∃ n, (h, n) ∈ r.entries) ∧ (∀ e ∈ r.entries, W.constructible e.1 = true) ∧
      (r.get name = some h ∨ (r.get name = none ∧ (h, none) ∈ r.entries) ∨
        (∃ v', v = some v' ∧ W.statefulV v' = true ∧ W.canSave h v' = true ∧ (h, none) ∈ r.entries)) := by
  cases v with
  | none => simp [resolveSave] at hs
  | some v =>
    unfold resolveSave at hs
    by_cases hall : (r.entries.all fun e => W.constructible e.1) = true
    · have hc := List.all_eq_true.1 hall
      simp only [possible, hall, if_true] at hs
      have hlast : ∀ h', ((r.entries.filter fun e => e.2.isNone && W.canSave e.1 v).map
          Prod.fst).getLast? = some h' → (h', none) ∈ r.entries ∧ W.canSave h' v = true := by
        intro h' hl
        have := List.mem_of_getLast? hl
        obtain ⟨e, he, rfl⟩ := List.mem_map.1 this
        obtain ⟨he1, he2⟩ := List.mem_filter.1 he
        rw [Bool.and_eq_true, Option.isNone_iff_eq_none] at he2
        refine ⟨?_, he2.2⟩
        rw [← he2.1]
        exact he1
      have hget : ∀ h', r.get name = some h' → ∃ n, (h', n) ∈ r.entries := by
        intro h' hg
        unfold Registry.get at hg
        obtain ⟨e, he, rfl⟩ := Option.map_eq_some_iff.1 hg
        exact ⟨e.2, List.mem_of_find?_eq_some he⟩
      cases hst : W.statefulV v with
      | true =>
        rw [hst] at hs
        cases hl : ((r.entries.filter fun e => e.2.isNone && W.canSave e.1 v).map Prod.fst).getLast? with
        | some h' =>
          simp only [hl, Except.ok.injEq] at hs
          subst hs
          exact ⟨⟨none, (hlast _ hl).1⟩, hc, Or.inr (Or.inr ⟨v, rfl, hst, (hlast _ hl).2, (hlast _ hl).1⟩)⟩
        | none =>
          simp only [hl] at hs
          cases hg : r.get name with
          | none => rw [hg] at hs; cases hs
          | some h' =>
            rw [hg] at hs
            unfold construct at hs
            simp only at hs
            split at hs
            · cases hs; exact ⟨hget _ hg, hc, Or.inl rfl⟩
            · cases hs
      | false =>
        rw [hst] at hs
        simp only at hs
        cases hg : r.get name with
        | some h' =>
          rw [hg] at hs
          unfold construct at hs
          simp only at hs
          split at hs
          · cases hs; exact ⟨hget _ hg, hc, Or.inl rfl⟩
          · cases hs
        | none =>
          rw [hg] at hs
          simp only at hs
          cases hl : ((r.entries.filter fun e => e.2.isNone && W.canSave e.1 v).map Prod.fst).getLast? with
          | none => rw [hl] at hs; cases hs
          | some h' =>
            rw [hl] at hs
            cases hs
            exact ⟨⟨none, (hlast _ hl).1⟩, hc, Or.inr (Or.inl ⟨rfl, (hlast _ hl).1⟩)⟩
    · simp only [possible, hall] at hs
      cases hs

/-! ## Resolution for loading -/

theorem byTypestr_distinct (W : World H V A) (r : Registry H) (h : H) (hd : Distinct W r h) :
    byTypestr W r (W.typestr h) = some h := by
  obtain ⟨_, ⟨n, hm⟩, ho⟩ := hd
  unfold byTypestr
  cases hf : r.entries.reverse.find? fun e =>
      decide (W.typestr e.1 = W.typestr h) || (r.secondary e.1).contains (W.typestr h) with
  | none =>
    have := List.find?_eq_none.1 hf (h, n) (by simpa using hm)
    simp at this
  | some e =>
    have h1 : e ∈ r.entries := by simpa using List.mem_of_find?_eq_some hf
    have h2 := List.find?_some hf
    rw [Option.map_some]
    congr 1
    by_cases he : e.1 = h
    · exact he
    · exfalso
      obtain ⟨h3, h4⟩ := ho e h1 he
      rw [Bool.or_eq_true, decide_eq_true_eq, List.contains_iff_mem] at h2
      rcases h2 with h2 | h2
      · exact h3 h2
      · exact h4 h2

/-- C81: what was saved by a handler is loaded by that handler - without a template, and with any template
the handler accepts - when no other registered class uses its type string and, if the value saves itself,
no other handler is registered for its name (with a template that loads itself, even then). -/
theorem C81_same_handler (W : World H V A) (r : Registry H) (name : String) (v : V) (h : H)
    (hs : resolveSave W r name (some v) = .ok h) (hd : Distinct W r h) (abs : Option A)
    (habs : ∀ a, abs = some a → W.canLoad h a = true)
    (hst : W.statefulV v = true → (∀ h', (h', some name) ∉ r.entries) ∨
      ∃ a, abs = some a ∧ W.statefulA a = true) :
    resolveLoad W r name abs (some (W.typestr h)) = .ok h := by
  obtain ⟨_, hc, hcase⟩ := resolveSave_mem W r name (some v) h hs
  have hch : W.constructible h = true := by
    obtain ⟨n, hn⟩ := hd.2.1
    exact hc _ hn
  have hb := byTypestr_distinct W r h hd
  have hres : constructOpt W (match some (W.typestr h) with
      | some t => if t ≠ "" then byTypestr W r t else none
      | none => none) = .ok (some h) := by
    simp only [hd.1, ne_eq, not_false_eq_true, if_true, hb, constructOpt, hch]
  have hexp : ∃ ex, constructOpt W (r.get name) = .ok ex ∧
      (ex = r.get name) := by
    cases hg : r.get name with
    | none => exact ⟨none, rfl, rfl⟩
    | some h' =>
      have : W.constructible h' = true := by
        unfold Registry.get at hg
        obtain ⟨e, he, rfl⟩ := Option.map_eq_some_iff.1 hg
        exact hc _ (List.mem_of_find?_eq_some he)
      exact ⟨some h', by simp [constructOpt, this], rfl⟩
  obtain ⟨ex, hex, hexg⟩ := hexp
  unfold resolveLoad
  simp only [hex]
  rw [hres]
  simp only
  have hexh : ex = some h ∨ ex = none ∨ ∃ a, abs = some a ∧ W.statefulA a = true := by
    rcases hcase with hcase | ⟨hcase, _⟩ | ⟨v', hv', hst', _, _⟩
    · exact Or.inl (hexg.trans hcase)
    · exact Or.inr (Or.inl (hexg.trans hcase))
    · cases hv'
      rcases hst hst' with hst | hst
      · exact Or.inr (Or.inl (hexg.trans ((get_none_iff r name).2 hst)))
      · exact Or.inr (Or.inr hst)
  cases abs with
  | none =>
    rcases hexh with rfl | rfl | ⟨a, ha, _⟩
    · rfl
    · rfl
    · cases ha
  | some a =>
    have hca := habs a rfl
    unfold decideLoad
    simp only [Option.any_some, hca, Bool.and_true, if_true]
    rcases hexh with rfl | rfl | ⟨a', ha, hsa⟩
    · simp only [Option.any_some, hca, if_true]
      split <;> rfl
    · simp only [Option.any_none, Bool.false_eq_true, if_false]
      split <;> rfl
    · cases ha
      rw [if_pos hsa]

/-- C81: without a template the handler registered for the name is used, and if there is none the one
recorded in the checkpoint, if its class is registered. -/
theorem C81_load_untemplated (W : World H V A) (r : Registry H) (hb : Built r) (name : String)
    (hn : name ≠ "") (hc : ∀ e ∈ r.entries, W.constructible e.1 = true) (ts : Option String) :
    (∀ h, (h, some name) ∈ r.entries → resolveLoad W r name none ts = .ok h) ∧
    (∀ h, (∀ h', (h', some name) ∉ r.entries) → Distinct W r h → ts = some (W.typestr h) →
      resolveLoad W r name none ts = .ok h) := by
  constructor
  · intro h hm
    have hco : ∀ o : Option H, (∀ h', o = some h' → ∃ n, (h', n) ∈ r.entries) →
        constructOpt W o = .ok o := by
      intro o ho
      cases o with
      | none => rfl
      | some h' =>
        obtain ⟨n, hm'⟩ := ho h' rfl
        simp only [constructOpt, hc _ hm', if_true]
    have hbt : ∀ t h', byTypestr W r t = some h' → ∃ n, (h', n) ∈ r.entries := by
      intro t h' hbt
      unfold byTypestr at hbt
      obtain ⟨e', he', rfl⟩ := Option.map_eq_some_iff.1 hbt
      exact ⟨e'.2, by simpa using List.mem_of_find?_eq_some he'⟩
    unfold resolveLoad
    rw [(get_iff r hb name hn h).2 hm, hco (some h) (by rintro h' h2; cases h2; exact ⟨_, hm⟩)]
    cases ts with
    | none => rfl
    | some t =>
      simp only
      by_cases ht : t = ""
      · simp only [ht, ne_eq, not_true_eq_false, if_false]
        rfl
      · simp only [ht, ne_eq, not_false_eq_true, if_true]
        rw [hco _ (hbt t)]
        rfl
  · rintro h hno hd rfl
    unfold resolveLoad
    rw [(get_none_iff r name).2 hno]
    have hch : W.constructible h = true := by
      obtain ⟨n, hm⟩ := hd.2.1
      exact hc _ hm
    simp only [constructOpt, hd.1, ne_eq, not_false_eq_true, if_true, byTypestr_distinct W r h hd, hch]
    rfl

/-- C81: with a template, whatever handler is chosen accepts it, unless it is the one registered for the
name. -/
theorem C81_load_accepts (W : World H V A) (r : Registry H) (name : String) (a : A) (ts : Option String)
    (h : H) (hl : resolveLoad W r name (some a) ts = .ok h) :
    W.canLoad h a = true ∨ (h, some name) ∈ r.entries := by
  unfold resolveLoad at hl
  have hget : ∀ h', r.get name = some h' → (h', some name) ∈ r.entries := by
    intro h' hg
    unfold Registry.get at hg
    obtain ⟨e, he, rfl⟩ := Option.map_eq_some_iff.1 hg
    have h2 := List.find?_some he
    rw [decide_eq_true_eq] at h2
    rw [← h2]
    exact List.mem_of_find?_eq_some he
  cases hex : constructOpt W (r.get name) with
  | error e => rw [hex] at hl; cases hl
  | ok ex =>
    have hexg : ∀ h', ex = some h' → r.get name = some h' := by
      intro h' hh
      subst hh
      cases hg : r.get name with
      | none => rw [hg] at hex; cases hex
      | some h'' =>
        rw [hg] at hex
        simp only [constructOpt] at hex
        split at hex
        · cases hex; rfl
        · cases hex
    rw [hex] at hl
    simp only at hl
    split at hl
    · cases hl
    · rename_i resolved _
      unfold decideLoad at hl
      simp only at hl
      split at hl
      · rename_i hcond
        cases resolved with
        | none => cases hl
        | some h' =>
          cases hl
          rw [Bool.and_eq_true] at hcond
          exact Or.inl (by simpa using hcond.2)
      · split at hl
        · rename_i hcond
          cases ex with
          | none => cases hl
          | some h' =>
            cases hl
            exact Or.inl (by simpa using hcond)
        · split at hl
          · rename_i hcond
            cases resolved with
            | none => cases hl
            | some h' =>
              cases hl
              exact Or.inl (by simpa using hcond)
          · split at hl
            · cases hl
            · rename_i hs hps
              split at hl
              · cases hl
                have hlast : hs.getLast? = some h := by assumption
                left
                unfold possible at hps
                split at hps
                · cases hps
                  have := List.mem_of_getLast? hlast
                  obtain ⟨e, he, rfl⟩ := List.mem_map.1 this
                  have := (List.mem_filter.1 he).2
                  rw [Bool.and_eq_true] at this
                  exact this.2
                · cases hps
              · rename_i h' _
                cases hl
                exact Or.inr (hget _ (hexg _ rfl))
              · cases hl

/-! ### What goes wrong -/

/-- C81 (finding): a value that saves itself and whose name has another handler is saved by one handler
and, without a template, loaded by the other. -/
theorem C81_stateful_named_fails (W : World H V A) (g s : H) (name : String)
    (hn : name ≠ "") (v : V) (hv : W.statefulV v = true) (hs : W.canSave s v = true)
    (hc : ∀ h, W.constructible h = true) :
    ∃ r : Registry H, Built r ∧ resolveSave W r name (some v) = .ok s ∧
      ∀ ts, resolveLoad W r name none ts = .ok g := by
  let r1 : Registry H := ⟨[(s, none)], fun _ => []⟩
  let r2 : Registry H := ⟨[(s, none), (g, some name)], fun _ => []⟩
  have hb1 : Built r1 := Built.add Registry.empty r1 s none none Built.empty rfl
  have hb2 : Built r2 := Built.add r1 r2 g (some name) none hb1 (by
    have : r1.taken g (some name) = false := by
      rw [taken_iff]
      intro e he
      simp only [r1, List.mem_singleton] at he
      subst he
      simp [Compatible, hn]
    simp only [Registry.add, this, Bool.false_eq_true, if_false]
    rfl)
  refine ⟨r2, hb2, ?_, ?_⟩
  · exact C81_save_stateful W r2 name [] [(g, some name)] s rfl (fun e _ => hc e.1) v hv hs (by simp)
  · intro ts
    exact (C81_load_untemplated W r2 hb2 name hn (fun e _ => hc e.1) ts).1 g (by simp [r2])

/-- C81 (finding): a class registered later that lists another registered class's type string among its
secondary ones takes over that class's checkpoints, although the class that saved them is registered. -/
theorem C81_secondary_steals_fails (W : World H V A) (a b : H) (hab : a ≠ b) (name : String) (v : V)
    (hsa : W.canSave a v = true) (hsb : W.canSave b v = false) (hta : W.typestr a ≠ "")
    (hc : ∀ h, W.constructible h = true) :
    ∃ r : Registry H, Built r ∧ resolveSave W r name (some v) = .ok a ∧
      resolveLoad W r name none (some (W.typestr a)) = .ok b := by
  let r1 : Registry H := ⟨[(a, none)], fun _ => []⟩
  let r2 : Registry H := ⟨[(a, none), (b, none)], fun x => if x = b then [W.typestr a] else []⟩
  have hb1 : Built r1 := Built.add Registry.empty r1 a none none Built.empty rfl
  have hb2 : Built r2 := Built.add r1 r2 b none (some [W.typestr a]) hb1 (by
    have : r1.taken b none = false := by
      rw [taken_iff]
      intro e he
      simp only [r1, List.mem_singleton] at he
      subst he
      exact hab
    simp only [Registry.add, this, Bool.false_eq_true, if_false]
    rfl)
  refine ⟨r2, hb2, ?_, ?_⟩
  · exact C81_save_latest W r2 name (by simp [r2]) [] [(b, none)] a rfl (fun e _ => hc e.1) v hsa (by
      intro e he _
      simp only [List.mem_singleton] at he
      subst he
      exact hsb)
  · unfold resolveLoad
    have h1 : r2.get name = none := (get_none_iff r2 name).2 (by simp [r2])
    have h2 : byTypestr W r2 (W.typestr a) = some b := by
      unfold byTypestr
      simp [r2]
    simp only [h1, constructOpt, hta, ne_eq, not_false_eq_true, if_true, h2, hc]
    rfl

/-- C81 (finding): the handler registered for a name is not always used for loading it. With a template it
does not accept, another handler is used, although registering for a name is documented to be decisive
even for a handler that is not capable. -/
theorem C81_named_overridden_fails (W : World H V A) (g s : H) (name : String)
    (hn : name ≠ "") (v : V) (hv : W.statefulV v = false) (a : A) (hg : W.canLoad g a = false)
    (hs : W.canLoad s a = true) (hc : ∀ h, W.constructible h = true) :
    ∃ r : Registry H, Built r ∧ resolveSave W r name (some v) = .ok g ∧
      resolveLoad W r name (some a) (some (W.typestr g)) = .ok s := by
  let r1 : Registry H := ⟨[(s, none)], fun _ => []⟩
  let r2 : Registry H := ⟨[(s, none), (g, some name)], fun _ => []⟩
  have hb1 : Built r1 := Built.add Registry.empty r1 s none none Built.empty rfl
  have hb2 : Built r2 := Built.add r1 r2 g (some name) none hb1 (by
    have : r1.taken g (some name) = false := by
      rw [taken_iff]
      intro e he
      simp only [r1, List.mem_singleton] at he
      subst he
      simp [Compatible, hn]
    simp only [Registry.add, this, Bool.false_eq_true, if_false]
    rfl)
  refine ⟨r2, hb2, ?_, ?_⟩
  · exact C81_save_named W r2 hb2 name hn g (by simp [r2]) (fun e _ => hc e.1) v hv
  · have hget := (get_iff r2 hb2 name hn g).2 (by simp [r2])
    unfold resolveLoad
    simp only [hget, constructOpt, hc, if_true]
    have hbt : ∀ t, t = W.typestr g → byTypestr W r2 t = some g := by
      rintro t rfl
      unfold byTypestr
      simp [r2]
    have hps : possible W r2 (fun h => W.canLoad h a) = .ok [s] := by
      unfold possible
      rw [if_pos (List.all_eq_true.2 fun e _ => hc e.1)]
      simp [r2, hs]
    by_cases hte : W.typestr g = ""
    · simp [hte, decideLoad, hg, hps]
    · simp [hte, hbt _ rfl, decideLoad, hg, hps]

/-- C81 (finding): one registered class that cannot be constructed without arguments makes saving fail for
every value and every name, also those with a handler of their own; registering it succeeds. -/
theorem C81_unconstructible_fails (W : World H V A) (r : Registry H) (h : H) (n : Option String)
    (hm : (h, n) ∈ r.entries) (hc : W.constructible h = false) (name : String) (v : V) :
    resolveSave W r name (some v) = .error .notConstructible := by
  have : (r.entries.all fun e => W.constructible e.1) = false := by
    rw [List.all_eq_false]
    exact ⟨_, hm, by simp [hc]⟩
  simp [resolveSave, possible, this]

/-- C81 (finding): a local registry cannot be made from a registry that already contains the global one:
for every non-empty global registry, adding its own local copy to it is refused. -/
theorem C81_nested_local_fails (g g' : Registry H) (hb : Built g) (hne : g.entries ≠ [])
    (hg : localRegistry g none true = .ok g') :
    localRegistry g (some g') true = .error .alreadyExists := by
  obtain ⟨_, r', h1, h2, h3⟩ := C81_copy g g hb
  rw [hg] at h1
  cases h1
  have hstart : addAll Registry.empty g.secondary g.entries = .ok g' := by
    unfold localRegistry at hg
    simp only [if_true] at hg
    cases ha : addAll Registry.empty g.secondary g.entries with
    | error e => rw [ha] at hg; cases hg
    | ok r => rw [ha] at hg; cases hg; rfl
  unfold localRegistry
  simp only [if_true, hstart]
  cases he : g'.entries with
  | nil => rw [h2] at he; exact absurd he hne
  | cons e rest =>
    obtain ⟨h, name⟩ := e
    have ht : g'.taken h name = true := by
      cases hc : g'.taken h name with
      | true => rfl
      | false =>
        exfalso
        have := (taken_iff g' h name).1 hc (h, name) (by rw [he]; simp)
        cases name with
        | none => exact this rfl
        | some n =>
          simp only [Compatible] at this
          split at this
          · exact this rfl
          · exact this rfl
    simp only [addAll, Registry.add, ht, if_true]

/-- The hypotheses are met: two classes, one for all names and one for a name. -/
theorem C81_nonvacuous :
    ∃ (W : World Bool Nat Nat) (r : Registry Bool), Built r ∧
      (∀ e ∈ r.entries, W.constructible e.1 = true) ∧ Distinct W r true ∧ Distinct W r false ∧
      resolveSave W r "x" (some 1) = .ok false ∧ resolveSave W r "state" (some 1) = .ok true ∧
      W.canLoad false 1 = true ∧ W.statefulV 1 = false := by
  let W : World Bool Nat Nat := ⟨fun b => if b then "T" else "F", fun _ => true, fun b _ => !b,
    fun b _ => !b, fun _ => false, fun _ => false⟩
  let r1 : Registry Bool := ⟨[(false, none)], fun _ => []⟩
  let r2 : Registry Bool := ⟨[(false, none), (true, some "state")], fun _ => []⟩
  have hb1 : Built r1 := Built.add Registry.empty r1 false none none Built.empty rfl
  have hb2 : Built r2 := Built.add r1 r2 true (some "state") none hb1 rfl
  refine ⟨W, r2, hb2, by simp [W], ?_, ?_, rfl, rfl, rfl, rfl⟩
  · refine ⟨by decide, ⟨some "state", by simp [r2]⟩, ?_⟩
    intro e he hne
    simp only [r2, List.mem_cons, List.not_mem_nil, or_false] at he
    rcases he with rfl | rfl
    · exact ⟨by decide, by simp [r2]⟩
    · exact absurd rfl hne
  · refine ⟨by decide, ⟨none, by simp [r2]⟩, ?_⟩
    intro e he hne
    simp only [r2, List.mem_cons, List.not_mem_nil, or_false] at he
    rcases he with rfl | rfl
    · exact absurd rfl hne
    · exact ⟨by decide, by simp [r2]⟩

end Verif.V1
