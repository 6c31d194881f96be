import Verif.Export.Manager
import Verif.Export.ManagerSpec

/-!
# C97: an exported signature computes what its configuration says
-/

namespace Verif.Export.ManagerProps
open Verif.Export.Manager Verif.Export.ManagerSpec

/-! ## One call -/

theorem inference_iff {V : Type} (c : Config V) (g : Val V → Val V) (inputs : List (Val V))
    (y : Val V) : inference c g inputs = .ok y ↔ Serves c g inputs y := by
  constructor
  · intro h
    cases hpre : c.pre with
    | some f =>
      cases hp : c.passthrough with
      | false =>
        cases ho : c.post with
        | none =>
          simp [inference, hpre, hp, ho] at h
          subst h
          exact .plain inputs _ hp (.pre f inputs hpre) ho
        | some p =>
          simp [inference, hpre, hp, ho] at h
          subst h
          exact .post inputs _ p hp (.pre f inputs hpre) ho
      | true =>
        have key : ∃ a b, f inputs = .tuple [a, b] := by
          cases hf : f inputs with
          | leaf v => simp [inference, hpre, hp, hf] at h
          | tuple xs =>
            match xs, hf with
            | [], hf => simp [inference, hpre, hp, hf] at h
            | [_], hf => simp [inference, hpre, hp, hf] at h
            | [a, b], _ => exact ⟨a, b, rfl⟩
            | _ :: _ :: _ :: _, hf => simp [inference, hpre, hp, hf] at h
        obtain ⟨a, b, hab⟩ := key
        cases ho : c.post with
        | none =>
          simp [inference, hpre, hp, ho, hab] at h
          subst h
          exact .throughPre inputs f a b hp hpre ho hab
        | some p =>
          simp [inference, hpre, hp, ho, hab] at h
          subst h
          exact .through inputs f p a b hp hpre ho hab
    | none =>
      have key : ∃ x, inputs = [x] := by
        match inputs, h with
        | [], h => simp [inference, hpre] at h
        | [x], _ => exact ⟨x, rfl⟩
        | _ :: _ :: _, h => simp [inference, hpre] at h
      obtain ⟨x, rfl⟩ := key
      cases hp : c.passthrough with
      | false =>
        cases ho : c.post with
        | none =>
          simp [inference, hpre, ho] at h
          subst h
          exact .plain [x] x hp (.direct x hpre) ho
        | some p =>
          simp [inference, hpre, hp, ho] at h
          subst h
          exact .post [x] x p hp (.direct x hpre) ho
      | true =>
        cases ho : c.post with
        | none =>
          simp [inference, hpre, ho] at h
          subst h
          exact .throughNone x hp hpre ho
        | some p => simp [inference, hpre, hp, ho] at h
  · intro h
    cases h with
    | plain inputs x hp hi ho => cases hi with
      | pre f _ hf => simp [inference, hf, hp, ho]
      | direct _ hf => simp [inference, hf, ho]
    | post inputs x p hp hi ho => cases hi with
      | pre f _ hf => simp [inference, hf, hp, ho]
      | direct _ hf => simp [inference, hf, hp, ho]
    | through inputs f p a b hp hf ho hab => simp [inference, hf, hp, ho, hab]
    | throughPre inputs f a b hp hf ho hab => simp [inference, hf, hp, ho, hab]
    | throughNone x hp hf ho => simp [inference, hf, ho]

theorem lookup_iff {X : Type} : ∀ (c : List (String × X)), (c.map (·.1)).Nodup → ∀ k y,
    (c.lookup k = some y ↔ (k, y) ∈ c) := by
  intro c
  induction c with
  | nil => intro _ k y; simp
  | cons p c ih =>
    intro hn k y
    obtain ⟨k', y'⟩ := p
    simp only [List.map_cons, List.nodup_cons] at hn
    by_cases hk : k = k'
    · subst hk
      simp only [List.lookup_cons, BEq.rfl, Option.some.injEq, List.mem_cons, Prod.mk.injEq,
        true_and]
      constructor
      · intro h; exact .inl h.symm
      · rintro (h | h)
        · exact h.symm
        · exact absurd (List.mem_map.2 ⟨_, h, rfl⟩) hn.1
    · have hne : (k == k') = false := by simpa using hk
      simp only [List.lookup_cons, hne, ih hn.2 k y, List.mem_cons, Prod.mk.injEq]
      constructor
      · intro h; exact .inr h
      · rintro (h | h)
        · exact absurd h.1 hk
        · exact h

theorem inferStep_iff {V X : Type} (c : Config V) (fns : List (String × X))
    (hn : (fns.map (·.1)).Nodup) (f : X) : inferStep c fns = .ok f ↔ Names c fns f := by
  constructor
  · intro h
    cases hk : c.methodKey with
    | some k =>
      cases hl : fns.lookup k with
      | none => simp [inferStep, hk, hl] at h
      | some g =>
        simp [inferStep, hk, hl] at h
        subst h
        exact .key k g hk ((lookup_iff fns hn k g).1 hl)
    | none =>
      match fns, h with
      | [], h => simp [inferStep, hk] at h
      | [(k, g)], h =>
        simp [inferStep, hk] at h
        subst h
        exact .only k g hk rfl
      | _ :: _ :: _, h => simp [inferStep, hk] at h
  · intro h
    cases h with
    | key k f hk hm => simp [inferStep, hk, (lookup_iff fns hn k f).2 hm]
    | only k f hk hm => simp [inferStep, hk, hm]

/-! ## Entering signatures -/

theorem lookup_none {X : Type} (l : List (String × X)) (k : String) :
    (l.lookup k).isSome = true ↔ k ∈ l.map (·.1) := by
  induction l with
  | nil => simp
  | cons p l ih =>
    obtain ⟨k', x⟩ := p
    by_cases h : k = k'
    · subst h; simp
    · have hne : (k == k') = false := by simpa using h
      simp only [List.lookup_cons, hne, ih, List.map_cons, List.mem_cons, h, false_or]

section
variable {T F A V : Type}

theorem enter_iff (s : Config V × ApplyFn T F A V) :
    ∀ (ks : List String) (sigs sigs' : Sigs T F A V), (sigs.map (·.1)).Nodup →
      (enter s ks sigs = .ok sigs' ↔
        sigs' = sigs ++ ks.map (fun k => (k, s)) ∧ (sigs.map (·.1) ++ ks).Nodup) := by
  intro ks
  induction ks with
  | nil =>
    intro sigs sigs' hn
    simp only [enter, Except.ok.injEq, List.map_nil, List.append_nil]
    constructor
    · intro h; exact ⟨h.symm, hn⟩
    · intro h; exact h.1.symm
  | cons k ks ih =>
    intro sigs sigs' hn
    simp only [enter]
    by_cases hk : k ∈ sigs.map (·.1)
    · rw [if_pos ((lookup_none sigs k).2 hk)]
      constructor
      · intro h; simp at h
      · rintro ⟨_, h⟩
        rw [List.nodup_append] at h
        exact absurd rfl (h.2.2 k hk k (List.mem_cons_self ..))
    · rw [if_neg (fun h => hk ((lookup_none sigs k).1 h))]
      have hn' : ((sigs ++ [(k, s)]).map (·.1)).Nodup := by
        rw [List.map_append, List.nodup_append]
        refine ⟨hn, by simp, ?_⟩
        intro a ha b hb
        simp at hb
        subst hb
        intro e; subst e; exact hk ha
      rw [ih _ _ hn']
      simp [List.append_assoc]

/-- The configurations that are accepted, with the entries they make. -/
inductive Entered (fns : List (String × ApplyFn T F A V)) :
    List (Config V) → Sigs T F A V → Prop where
  | nil : Entered fns [] []
  | cons (c : Config V) (cs : List (Config V)) (f : ApplyFn T F A V) (sigs : Sigs T F A V)
      (hk : c.keys ≠ []) (hf : inferStep c fns = .ok f) (ht : Entered fns cs sigs) :
      Entered fns (c :: cs) (c.keys.map (fun k => (k, (c, f))) ++ sigs)

theorem signatures_iff (fns : List (String × ApplyFn T F A V)) :
    ∀ (cs : List (Config V)) (sigs sigs' : Sigs T F A V), (sigs.map (·.1)).Nodup →
      (signatures fns cs sigs = .ok sigs' ↔
        ∃ new, Entered fns cs new ∧ sigs' = sigs ++ new ∧ (sigs'.map (·.1)).Nodup) := by
  intro cs
  induction cs with
  | nil =>
    intro sigs sigs' hn
    simp only [signatures, Except.ok.injEq]
    constructor
    · intro h; subst h; exact ⟨[], .nil, by simp, hn⟩
    · rintro ⟨new, h1, h2, _⟩
      cases h1
      simpa using h2.symm
  | cons c cs ih =>
    intro sigs sigs' hn
    simp only [signatures]
    by_cases hk : c.keys = []
    · rw [if_pos hk]
      constructor
      · intro h; simp at h
      · rintro ⟨new, h1, _⟩
        cases h1 with
        | cons _ _ f sg hk' => exact absurd hk hk'
    · rw [if_neg hk]
      cases hf : inferStep c fns with
      | error e =>
        simp only
        constructor
        · intro h; simp at h
        · rintro ⟨new, h1, _⟩
          cases h1 with
          | cons _ _ f sg hk' hf' => rw [hf] at hf'; simp at hf'
      | ok f =>
        simp only
        cases he : enter (c, f) c.keys sigs with
        | error e =>
          simp only
          constructor
          · intro h; simp at h
          · rintro ⟨new, h1, h2, h3⟩
            cases h1 with
            | cons _ _ f' sg hk' hf' ht =>
              rw [hf] at hf'
              simp only [Except.ok.injEq] at hf'
              subst hf'
              rw [h2, List.map_append, List.map_append, ← List.append_assoc] at h3
              have h4 := (List.nodup_append.1 h3).1
              have : enter (c, f) c.keys sigs = .ok (sigs ++ c.keys.map fun k => (k, (c, f))) :=
                (enter_iff (c, f) c.keys sigs _ hn).2 ⟨rfl, by simpa [List.map_map, Function.comp_def] using h4⟩
              rw [this] at he
              simp at he
        | ok sg =>
          simp only
          obtain ⟨h1, h2⟩ := (enter_iff (c, f) c.keys sigs sg hn).1 he
          have hsg : (sg.map (·.1)).Nodup := by
            rw [h1]; simpa [List.map_map, Function.comp_def] using h2
          rw [ih sg sigs' hsg]
          constructor
          · rintro ⟨new, h3, h4, h5⟩
            exact ⟨_, .cons c cs f new hk hf h3, by rw [h4, h1, List.append_assoc], h5⟩
          · rintro ⟨new, h3, h4, h5⟩
            cases h3 with
            | cons _ _ f' sg' hk' hf' ht =>
              rw [hf] at hf'
              simp only [Except.ok.injEq] at hf'
              subst hf'
              exact ⟨sg', ht, by rw [h4, h1, List.append_assoc], h5⟩

theorem entered_keys {fns : List (String × ApplyFn T F A V)} {cs : List (Config V)}
    {sigs : Sigs T F A V} (h : Entered fns cs sigs) :
    sigs.map (·.1) = cs.flatMap (·.keys) := by
  induction h with
  | nil => rfl
  | cons c cs f sg hk hf _ ih =>
    simp [ih, Function.comp_def]

theorem entered_mem {fns : List (String × ApplyFn T F A V)} {cs : List (Config V)}
    {sigs : Sigs T F A V} (h : Entered fns cs sigs) (c : Config V) (hc : c ∈ cs) :
    ∃ f, inferStep c fns = .ok f ∧ ∀ k ∈ c.keys, (k, (c, f)) ∈ sigs := by
  induction h with
  | nil => simp at hc
  | cons c' cs f sg hk hf _ ih =>
    rcases List.mem_cons.1 hc with e | e
    · subst e
      exact ⟨f, hf, fun k hk => List.mem_append.2 (.inl (List.mem_map.2 ⟨k, hk, rfl⟩))⟩
    · obtain ⟨f', h1, h2⟩ := ih e
      exact ⟨f', h1, fun k hk => List.mem_append.2 (.inr (h2 k hk))⟩

/-- C97: an export is made exactly when every configuration has a signature key
and names a function, and no signature key is used twice. -/
theorem C97_accepts (fns : List (String × ApplyFn T F A V)) (hn : (fns.map (·.1)).Nodup)
    (cs : List (Config V)) :
    (∃ sigs, signatures fns cs [] = .ok sigs) ↔
      (∀ c ∈ cs, c.keys ≠ [] ∧ ∃ f, Names c fns f) ∧ (cs.flatMap (·.keys)).Nodup := by
  constructor
  · rintro ⟨sigs, h⟩
    obtain ⟨new, h1, h2, h3⟩ := (signatures_iff fns cs [] sigs (by simp)).1 h
    simp only [List.nil_append] at h2
    subst h2
    refine ⟨?_, by rw [← entered_keys h1]; exact h3⟩
    intro c hc
    obtain ⟨f, hf, hx⟩ := entered_mem h1 c hc
    refine ⟨?_, f, (inferStep_iff c fns hn f).1 hf⟩
    clear h h3 hf hx
    induction h1 with
    | nil => simp at hc
    | cons c' cs f sg hk hf _ ih =>
      rcases List.mem_cons.1 hc with e | e
      · subst e; exact hk
      · exact ih e
  · rintro ⟨h1, h2⟩
    have : ∃ sigs, Entered fns cs sigs := by
      clear h2
      induction cs with
      | nil => exact ⟨[], .nil⟩
      | cons c cs ih =>
        obtain ⟨sg, hsg⟩ := ih fun c hc => h1 c (List.mem_cons_of_mem _ hc)
        obtain ⟨hk, f, hf⟩ := h1 c (List.mem_cons_self ..)
        exact ⟨_, .cons c cs f sg hk ((inferStep_iff c fns hn f).2 hf) hsg⟩
    obtain ⟨sigs, hs⟩ := this
    refine ⟨sigs, (signatures_iff fns cs [] sigs (by simp)).2 ⟨sigs, hs, rfl, ?_⟩⟩
    rw [entered_keys hs]; exact h2

/-- C97: the signature of every key of every configuration computes what the
configuration says: its pre-processor, the function it names on the values that
the variables have when it is called, its post-processor. -/
theorem C97_signature (fns : List (String × ApplyFn T F A V)) (hn : (fns.map (·.1)).Nodup)
    (cs : List (Config V)) (sigs : Sigs T F A V) (h : signatures fns cs [] = .ok sigs)
    (c : Config V) (hc : c ∈ cs) (k : String) (hk : k ∈ c.keys) :
    ∃ f, Names c fns f ∧ ∀ (m : Module T F A V) inputs y,
      call m sigs k inputs = .ok y ↔ Serves c (fun x => f ⟨m.varTd, m.vars⟩ x) inputs y := by
  obtain ⟨new, h1, h2, h3⟩ := (signatures_iff fns cs [] sigs (by simp)).1 h
  simp only [List.nil_append] at h2
  subst h2
  obtain ⟨f, hf, hm⟩ := entered_mem h1 c hc
  refine ⟨f, (inferStep_iff c fns hn f).1 hf, ?_⟩
  intro m inputs y
  have hl := (lookup_iff sigs h3 k _).2 (hm k hk)
  simp only [call, hl]
  exact inference_iff c _ inputs y

/-- C97: a saved model computes what the signatures computed when it was saved:
saving to other paths and updating the module afterwards do not change it. -/
theorem C97_saved (m : Module T F A V) (sigs : Sigs T F A V)
    (overrides : List (String × (List (Val V) → Except Err (Val V))))
    (path : String) (disk : List (String × Saved V))
    (later : List (String × Module T F A V × Sigs T F A V)) (hp : ∀ s ∈ later, s.1 ≠ path) :
    ∃ s, managerLoad .tfSavedModel
        (later.foldl (fun d s => managerSave .tfSavedModel s.2.1 s.2.2 [] s.1 d)
          (managerSave .tfSavedModel m sigs overrides path disk)) path = .ok s ∧
      (∀ k g, overrides.lookup k = some g → s k = g) ∧
      (∀ k, overrides.lookup k = none → s k = call m sigs k) := by
  have key : ∀ (later : List (String × Module T F A V × Sigs T F A V)) (d : List (String × Saved V)),
      (∀ s ∈ later, s.1 ≠ path) →
      (later.foldl (fun d s => managerSave .tfSavedModel s.2.1 s.2.2 [] s.1 d) d).lookup path =
        d.lookup path := by
    intro later
    induction later with
    | nil => intro d _; rfl
    | cons s later ih =>
      intro d hp
      rw [List.foldl_cons, ih _ fun t ht => hp t (List.mem_cons_of_mem _ ht)]
      have hne : (path == s.1) = false := by
        have := hp s (List.mem_cons_self ..)
        simpa using fun e => this e.symm
      simp [managerSave, save, List.lookup_cons, hne]
  refine ⟨fun k inputs =>
      match overrides.lookup k with
      | some g => g inputs
      | none => call m sigs k inputs, ?_, ?_, ?_⟩
  · simp only [managerLoad, load, key later _ hp]
    simp [managerSave, save] <;> rfl
  · intro k g hg
    simp [hg]
  · intro k hg
    simp [hg]

/-! ## Updates -/

variable [DecidableEq T] [DecidableEq F]

omit [DecidableEq T] in
theorem assign_spec : ∀ (vs ns : List (Arr F A)), vs.length = ns.length →
    forms (assign vs ns).1 = forms vs ∧
    ((assign vs ns).2 = none ↔ forms vs = forms ns) ∧
    ((assign vs ns).2 = none → (assign vs ns).1 = ns) := by
  intro vs
  induction vs with
  | nil =>
    intro ns h
    cases ns with
    | nil => simp [assign, forms]
    | cons => simp at h
  | cons v vs ih =>
    intro ns h
    cases ns with
    | nil => simp at h
    | cons n ns =>
      simp only [List.length_cons, Nat.add_right_cancel_iff] at h
      obtain ⟨h1, h2, h3⟩ := ih ns h
      simp only [assign]
      by_cases hf : v.form = n.form
      · rw [if_pos hf]
        simp only [forms, List.map_cons] at h1 h2 h3 ⊢
        refine ⟨by rw [h1, hf], by rw [h2, hf]; simp, fun h => by rw [h3 h]⟩
      · rw [if_neg hf]
        refine ⟨rfl, ?_, ?_⟩
        · simp [forms, hf]
        · simp

/-- A PyTree has as many leaves as its structure says. -/
def WF (size : T → Nat) (p : Params T F A) : Prop := p.leaves.length = size p.td

/-- What every history of updates keeps. -/
theorem after_inv (size : T → Nat) (p0 : Params T F A) :
    ∀ (ps : List (Params T F A)) (m : Module T F A V), m.varTd = p0.td →
      forms m.vars = forms p0.leaves → WF size p0 → (∀ p ∈ ps, WF size p) →
      (after m ps).varTd = p0.td ∧ forms (after m ps).vars = forms p0.leaves ∧
        (after m ps).fns = m.fns := by
  intro ps
  induction ps with
  | nil => intro m h1 h2 _ _; exact ⟨h1, h2, rfl⟩
  | cons p ps ih =>
    intro m h1 h2 hw hps
    simp only [after]
    by_cases ht : p.td = m.varTd
    · have hlen : m.vars.length = p.leaves.length := by
        have e1 : m.vars.length = p0.leaves.length := by
          have := congrArg List.length h2
          simpa [forms] using this
        have e2 := hps p (List.mem_cons_self ..)
        simp only [WF] at e2 hw
        rw [e1, hw, e2, ht, h1]
      have hu : update m p = ({ m with params := p, vars := (assign m.vars p.leaves).1 },
          (assign m.vars p.leaves).2) := by simp [update, ht]
      have := ih (update m p).1 (by rw [hu]; exact h1)
        (by rw [hu]; exact ((assign_spec _ _ hlen).1).trans h2) hw
        fun q hq => hps q (List.mem_cons_of_mem _ hq)
      rw [this.2.2]
      exact ⟨this.1, this.2.1, by rw [hu]⟩
    · have hu : update m p = ({ m with params := p }, some .treedef) := by simp [update, ht]
      have := ih (update m p).1 (by rw [hu]; exact h1) (by rw [hu]; exact h2) hw
        fun q hq => hps q (List.mem_cons_of_mem _ hq)
      rw [this.2.2]
      exact ⟨this.1, this.2.1, by rw [hu]⟩

/-- C97: after any history of updates, an update is accepted exactly when the
new parameters have the structure, shapes and types of the first ones; then both
the exported functions and the JAX functions use the new parameters. -/
theorem C97_update (size : T → Nat) (p0 : Params T F A)
    (fns : List (String × ApplyFn T F A V)) (ps : List (Params T F A)) (p : Params T F A)
    (hw : WF size p0) (hps : ∀ q ∈ ps, WF size q) (hp : WF size p) :
    ((update (after (mkModule p0 fns) ps) p).2 = none ↔
        p.td = p0.td ∧ forms p.leaves = forms p0.leaves) ∧
    ((update (after (mkModule p0 fns) ps) p).2 = none →
      ∀ f x, method (update (after (mkModule p0 fns) ps) p).1 f x = f p x ∧
        jaxMethod (update (after (mkModule p0 fns) ps) p).1 f x = f p x) := by
  obtain ⟨h1, h2, _⟩ := after_inv size p0 ps (mkModule p0 fns) rfl rfl hw hps
  generalize after (mkModule p0 fns) ps = m at h1 h2
  by_cases ht : p.td = m.varTd
  · have hlen : m.vars.length = p.leaves.length := by
      have e1 : m.vars.length = p0.leaves.length := by
        have := congrArg List.length h2
        simpa [forms] using this
      simp only [WF] at hp hw
      rw [e1, hw, hp, ht, h1]
    obtain ⟨_, a2, a3⟩ := assign_spec _ _ hlen
    have hu : update m p = ({ m with params := p, vars := (assign m.vars p.leaves).1 },
        (assign m.vars p.leaves).2) := by simp [update, ht]
    rw [hu]
    refine ⟨?_, ?_⟩
    · rw [a2, h2]
      exact ⟨fun e => ⟨ht.trans h1, e.symm⟩, fun e => e.2.symm⟩
    · intro hn f x
      simp only at hn
      simp only [method, jaxMethod, a3 hn, ← ht, and_self]
  · have hu : update m p = ({ m with params := p }, some .treedef) := by simp [update, ht]
    rw [hu]
    refine ⟨?_, ?_⟩
    · simp only [reduceCtorEq, false_iff]
      rintro ⟨e, _⟩
      exact ht (e.trans h1.symm)
    · intro hn; simp at hn

omit [DecidableEq T] [DecidableEq F] in
theorem find_config (cs : List (Config V))
    (hn : (cs.flatMap (·.keys)).Nodup) (c : Config V) (hc : c ∈ cs) (k : String)
    (hk : k ∈ c.keys) : (cs.filter fun c => c.keys.contains k).getLast? = some c := by
  induction cs with
  | nil => simp at hc
  | cons d cs ih =>
    simp only [List.flatMap_cons, List.nodup_append] at hn
    obtain ⟨_, h2, h3⟩ := hn
    rcases List.mem_cons.1 hc with e | e
    · subst e
      have : cs.filter (fun c => c.keys.contains k) = [] := by
        rw [List.filter_eq_nil_iff]
        intro d hd hkd
        exact h3 k hk k (List.mem_flatMap.2 ⟨d, hd, by simpa using hkd⟩) rfl
      rw [List.filter_cons_of_pos (by simpa using hk), this]
      rfl
    · have hd : ¬ d.keys.contains k = true := by
        intro hkd
        exact h3 k (by simpa using hkd) k (List.mem_flatMap.2 ⟨c, e, hk⟩) rfl
      rw [List.filter_cons_of_neg (p := fun c : Config V => c.keys.contains k) hd]
      exact ih h2 e

omit [DecidableEq T] [DecidableEq F] in
/-- C97: when the variables hold the JAX parameters, the exported signatures
compute what validation takes as the baseline. -/
theorem C97_baseline (m : Module T F A V) (cs : List (Config V)) (sigs : Sigs T F A V)
    (h : signatures m.fns cs [] = .ok sigs) (hm : m.params = ⟨m.varTd, m.vars⟩)
    (c : Config V) (hc : c ∈ cs) (k : String) (hk : k ∈ c.keys) (inputs : List (Val V)) :
    baseline m cs k inputs = call m sigs k inputs := by
  obtain ⟨new, h1, h2, h3⟩ := (signatures_iff m.fns cs [] sigs (by simp)).1 h
  simp only [List.nil_append] at h2
  subst h2
  obtain ⟨f, hf, hmem⟩ := entered_mem h1 c hc
  have hl := (lookup_iff sigs h3 k _).2 (hmem k hk)
  have hn := h3
  rw [entered_keys h1] at hn
  simp only [baseline, call, hl, find_config cs hn c hc k hk, hf]
  have : jaxMethod m f = method m f := by
    funext x; simp [jaxMethod, method, hm]
  rw [this]

/-! ## Findings -/

/-- C97 (finding): an update with another structure raises, but the JAX functions
use the refused parameters from then on, while the exported functions keep the
old ones. -/
theorem C97_refused_update_fails (m : Module T F A V) (p : Params T F A) (h : p.td ≠ m.varTd) :
    (update m p).2 = some .treedef ∧
      ∀ f x, jaxMethod (update m p).1 f x = f p x ∧
        method (update m p).1 f x = method m f x := by
  simp [update, h, jaxMethod, method]

/-- C97 (finding): an update in which one parameter has another shape raises, but
the parameters before it have been replaced: the exported functions compute with
a mixture. -/
theorem C97_partial_update_fails (td : T) (fns : List (String × ApplyFn T F A V))
    (v n : Arr F A) (vs ns : List (Arr F A)) (w x : Arr F A) (hv : v.form = n.form)
    (hw : w.form ≠ x.form) :
    (update (mkModule ⟨td, v :: w :: vs⟩ fns) ⟨td, n :: x :: ns⟩).2 = some .shape ∧
      ∀ f y, method (update (mkModule ⟨td, v :: w :: vs⟩ fns) ⟨td, n :: x :: ns⟩).1 f y =
        f ⟨td, n :: w :: vs⟩ y := by
  simp [update, mkModule, assign, hv, hw, method]

end

/-- C97 (finding): with `preprocess_output_passthrough_enabled`, a post-processor
and no pre-processor, every call fails. -/
theorem C97_passthrough_fails {V : Type} (c : Config V) (g : Val V → Val V) (x : Val V)
    (h : c.passthrough = true) (hpre : c.pre = none) (p : List (Val V) → Val V)
    (hpost : c.post = some p) : inference c g [x] = .error .unbound := by
  simp [inference, h, hpre, hpost]

/-- C97 (finding): saving an Orbax Model writes nothing and does not say so. -/
theorem C97_orbax_model_fails {T F A V : Type} (m : Module T F A V) (sigs : Sigs T F A V)
    (overrides : List (String × (List (Val V) → Except Err (Val V)))) (path : String)
    (disk : List (String × Saved V)) :
    managerSave .orbaxModel m sigs overrides path disk = disk ∧
      managerLoad .orbaxModel (managerSave .orbaxModel m sigs overrides path disk) path =
        .error .notImplemented := ⟨rfl, rfl⟩

/-- C97 (finding): with converter options the model is saved in a temporary
directory that is removed: nothing is at the path. -/
theorem C97_converter_fails {T F A V : Type} (m : Module T F A V) (sigs : Sigs T F A V)
    (overrides : List (String × (List (Val V) → Except Err (Val V)))) (path : String) :
    load (save m sigs overrides true path []) path = .error .notFound := rfl

theorem preKeys_ok {V : Type} : ∀ (cs : List (Config V)) (ks : List String),
    (∀ c ∈ cs, c.keys ≠ [] ∧ c.pre.isSome = true) → (ks ++ cs.flatMap (·.keys)).Nodup →
    preKeys cs ks = .ok (ks ++ cs.flatMap (·.keys)) := by
  intro cs
  induction cs with
  | nil => intro ks _ _; simp [preKeys]
  | cons c cs ih =>
    intro ks h hn
    obtain ⟨hk, hp⟩ := h c (List.mem_cons_self ..)
    simp only [List.flatMap_cons] at hn ⊢
    rw [← List.append_assoc] at hn
    have hn1 := (List.nodup_append.1 hn).1
    rw [List.nodup_append] at hn1
    have h1 : (c.keys.any fun k => ks.contains k) = false := by
      rw [List.any_eq_false]
      intro k hkc hks
      exact hn1.2.2 k (by simpa using hks) k hkc rfl
    have hp' : c.pre.isNone = false := by
      cases hpre : c.pre with
      | none => simp [hpre] at hp
      | some => rfl
    simp only [preKeys, hk, if_false, hp', h1, hn1.2.1, decide_true, Bool.not_true, Bool.or_false,
      Bool.false_eq_true]
    rw [ih _ (fun c hc => h c (List.mem_cons_of_mem _ hc)) hn, List.append_assoc]

/-- C97 (finding): when only the pre-processors are exported, every signature runs
the pre-processor of the last configuration. -/
theorem C97_preprocess_only_fails {V : Type} (cs : List (Config V)) (last : Config V)
    (pre : List (Val V) → Val V) (hl : last.pre = some pre)
    (h : ∀ c ∈ cs ++ [last], c.keys ≠ [] ∧ c.pre.isSome = true)
    (hn : ((cs ++ [last]).flatMap (·.keys)).Nodup)
    (c : Config V) (hc : c ∈ cs) (k : String) (hk : k ∈ c.keys) (inputs : List (Val V)) :
    preCall (cs ++ [last]) k inputs = .ok (nestFlatten (pre inputs)) := by
  have hkeys := preKeys_ok (cs ++ [last]) [] h (by simpa using hn)
  have hmem : ((cs ++ [last]).flatMap (·.keys)).contains k = true := by
    simp only [List.contains_iff_mem, List.mem_flatMap]
    exact ⟨c, List.mem_append.2 (.inl hc), hk⟩
  simp only [preCall, hkeys, List.nil_append, hmem, if_true, List.getLast?_append, List.getLast?_singleton,
    Option.some_or, hl]

/-! ## The hypotheses can be met -/

/-- The forms of parameters are numbers, their values too. -/
def exFn : ApplyFn Nat Nat Nat Nat := fun p x => .tuple [x, .tuple (p.leaves.map fun a => .leaf a.value)]

def exA : Config Nat := ⟨["a", "a2"], none, none, some "f", false⟩
def exB : Config Nat :=
  ⟨["b"], some fun xs => .tuple [.tuple xs, .leaf 7], some fun ys => .tuple ys, some "g", true⟩

/-- Two functions, two configurations with three keys, one of which passes an
output of its pre-processor through: the export is made, and the signature of
that one computes a value. -/
theorem C97_nonvacuous :
    (∃ sigs, signatures [("f", exFn), ("g", exFn)] [exA, exB] [] = .ok sigs ∧
      call (mkModule ⟨1, [⟨2, 5⟩]⟩ []) sigs "b" [.leaf 3] =
        .ok (.tuple [exFn ⟨1, [⟨2, 5⟩]⟩ (.tuple [.leaf 3]), .leaf 7])) ∧
    WF (T := Nat) (F := Nat) (A := Nat) id ⟨1, [⟨2, 5⟩]⟩ ∧
    (update (after (mkModule (V := Nat) ⟨1, [⟨2, 5⟩]⟩ [("f", exFn)]) [⟨1, [⟨3, 6⟩]⟩, ⟨4, []⟩])
      ⟨1, [⟨2, 8⟩]⟩).2 = none ∧
    (mkModule (V := Nat) (⟨1, [⟨2, 5⟩]⟩ : Params Nat Nat Nat) [("f", exFn)]).params = ⟨1, [⟨2, 5⟩]⟩ :=
  ⟨⟨_, rfl, rfl⟩, rfl, by decide, rfl⟩

/-- Two configurations with different pre-processors meet the hypotheses of
`C97_preprocess_only_fails`, and the first signature should give 1. -/
theorem C97_preprocess_only_nonvacuous :
    let one : Config Nat := ⟨["one"], some fun _ => .leaf 1, none, none, false⟩
    let two : Config Nat := ⟨["two"], some fun _ => .leaf 2, none, none, false⟩
    (∀ c ∈ [one] ++ [two], c.keys ≠ [] ∧ c.pre.isSome = true) ∧
    (([one] ++ [two]).flatMap (·.keys)).Nodup ∧
    preCall ([one] ++ [two]) "one" [] = .ok [2] := by
  refine ⟨?_, by decide, rfl⟩
  intro c hc
  simp only [List.cons_append, List.nil_append, List.mem_cons, List.not_mem_nil, or_false] at hc
  rcases hc with rfl | rfl <;> simp

end Verif.Export.ManagerProps
