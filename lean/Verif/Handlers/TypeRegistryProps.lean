import Verif.Handlers.TypeRegistry

/-!
# C55: lookups in the type handler registry
-/

namespace Verif.TypeRegistry

variable {T H : Type}

/-! ## Specification -/

/-- The types a registration is for: those its function accepts, by default the subclasses of the type. -/
def Reg.Accepts (sub : T → T → Bool) (x : Reg T H) (u : T) : Prop :=
  match x.func with
  | some f => f u = true
  | none => sub u x.type = true

instance (sub : T → T → Bool) (x : Reg T H) (u : T) : Decidable (x.Accepts sub u) := by
  unfold Reg.Accepts; split <;> exact inferInstance

/-- A registration succeeds and gives `r'`. -/
def Registers (sub : T → T → Bool) (typestr : H → String) (r : Registry T H) (x : Reg T H) (r' : Registry T H) : Prop :=
  add sub typestr r x.type x.handler x.func x.override = some r'

/-! ## Lemmas -/

theorem accepts_iff (sub : T → T → Bool) (x : Reg T H) (u : T) : x.Accepts sub u ↔ matcher sub x.type x.func u = true := by
  unfold Reg.Accepts matcher
  split <;> rename_i h <;> simp [h]

theorem firstMatch_none {t : T} : ∀ {l : List ((T → Bool) × H)}, firstMatch t l = none ↔ l.find? (fun x => x.1 t) = none
  | [] => by simp [firstMatch]
  | (f, h) :: r => by
    by_cases hf : f t
    · simp [firstMatch, hf]
    · simp only [firstMatch, hf, List.find?_cons]
      simpa using firstMatch_none (l := r)

/-- The list around the first match. -/
theorem firstMatch_some {t : T} : ∀ {l : List ((T → Bool) × H)} {i : Nat}, firstMatch t l = some i →
    ∃ a f h b, l = a ++ (f, h) :: b ∧ (∀ x ∈ a, x.1 t = false) ∧ f t = true ∧ ∀ y, l.set i y = a ++ y :: b
  | [], i, h => by simp [firstMatch] at h
  | (f, h) :: r, i, hi => by
    by_cases hf : f t
    · simp only [firstMatch, hf, if_true, Option.some.injEq] at hi
      subst hi
      exact ⟨[], f, h, r, rfl, by simp, hf, by simp⟩
    · simp only [firstMatch, hf, Bool.false_eq_true, if_false, Option.map_eq_some_iff] at hi
      obtain ⟨j, hj, rfl⟩ := hi
      obtain ⟨a, f', h', b, rfl, ha, hf', hs⟩ := firstMatch_some hj
      refine ⟨(f, h) :: a, f', h', b, rfl, ?_, hf', ?_⟩
      · intro x hx
        rcases List.mem_cons.mp hx with rfl | hx
        · simpa using hf
        · exact ha x hx
      · intro y; simp [hs y]

theorem find_append_cons {p : (T → Bool) × H → Bool} {a b : List ((T → Bool) × H)} {y : (T → Bool) × H}
    (ha : ∀ x ∈ a, p x = false) : (a ++ y :: b).find? p = if p y then some y else b.find? p := by
  induction a with
  | nil => cases h : p y <;> simp [h]
  | cons x a ih =>
    simp only [List.cons_append, List.find?_cons, ha x (by simp)]
    exact ih fun z hz => ha z (List.mem_cons_of_mem _ hz)

/-! ## C55 -/

/-- C55: after a successful registration, a lookup of the type gives the handler. -/
theorem C55_registered (sub : T → T → Bool) (typestr : H → String) (r r' : Registry T H) (x : Reg T H) (h : Registers sub typestr r x r')
    (hx : x.Accepts sub x.type) : get r' x.type = some x.handler ∧ getStr r' (typestr x.handler) = some x.handler := by
  rw [accepts_iff] at hx
  unfold Registers add at h
  split at h
  · rename_i hn
    split at h
    · cases h
    · cases h
      rw [firstMatch_none] at hn
      simp [get, getStr, setStr, List.find?_append, hn, hx]
  · rename_i i hi
    split at h
    · cases h
      obtain ⟨a, f, g, b, hl, ha, hf, hs⟩ := firstMatch_some hi
      simp only [get, hs]
      rw [find_append_cons ha]
      simp [hx, getStr, setStr]
    · cases h

/-- C55 for a registration with the default function: every type is its own subclass. -/
theorem C55_registered_default (sub : T → T → Bool) (hsub : ∀ t, sub t t = true) (typestr : H → String) (r r' : Registry T H) (t : T) (h : H)
    (o : Bool) (hr : Registers sub typestr r ⟨t, h, none, o⟩ r') : get r' t = some h :=
  (C55_registered sub typestr r r' _ hr (by simp [Reg.Accepts, hsub])).1

/-- C55 without `override`: the type had no handler, and every type that had one keeps it; types the registration is not for are looked up as before. -/
theorem C55_others (sub : T → T → Bool) (typestr : H → String) (r r' : Registry T H) (x : Reg T H) (h : Registers sub typestr r x r')
    (ho : x.override = false) :
    get r x.type = none ∧ (∀ u g, get r u = some g → get r' u = some g) ∧ (∀ u, ¬ x.Accepts sub u → get r' u = get r u) ∧
      ∀ u, x.Accepts sub u → get r u = none → get r' u = some x.handler := by
  unfold Registers add at h
  split at h
  · rename_i hn
    split at h
    · cases h
    · cases h
      rw [firstMatch_none] at hn
      refine ⟨by simp [get, hn], ?_, ?_, ?_⟩
      · intro u g hg
        simp only [get, Option.map_eq_some_iff] at hg
        obtain ⟨y, hy, rfl⟩ := hg
        simp [get, List.find?_append, hy]
      · intro u hu
        rw [accepts_iff] at hu
        simp [get, List.find?_append, hu]
      · intro u hu hg
        rw [accepts_iff] at hu
        simp only [get, Option.map_eq_none_iff] at hg
        simp [get, List.find?_append, hu, hg]
  · rw [ho] at h; simp at h

/-- C55 with `override`: only types that the registration is for, or whose handler was the replaced one, are looked up differently. -/
theorem C55_others_override (sub : T → T → Bool) (typestr : H → String) (r r' : Registry T H) (x : Reg T H) (h : Registers sub typestr r x r')
    (u : T) (hu : ¬ x.Accepts sub u) (hg : get r u = none ∨ get r u ≠ get r x.type) : get r' u = get r u := by
  rw [accepts_iff] at hu
  unfold Registers add at h
  split at h
  · split at h
    · cases h
    · cases h
      simp [get, List.find?_append, hu]
  · rename_i i hi
    split at h
    · cases h
      obtain ⟨a, f, g, b, hl, ha, hf, hs⟩ := firstMatch_some hi
      simp only [get, hs] at hg ⊢
      rw [hl] at hg ⊢
      by_cases hau : ∃ y ∈ a, y.1 u = true
      · obtain ⟨y, hy⟩ := Option.isSome_iff_exists.mp (List.find?_isSome.mpr hau)
        simp [List.find?_append, hy]
      · have hau' : ∀ y ∈ a, y.1 u = false := by
          intro y hy
          cases hyu : y.1 u
          · rfl
          · exact absurd ⟨y, hy, hyu⟩ hau
        rw [find_append_cons hau', find_append_cons hau'] at *
        cases hfu : f u
        · simp [hu, hfu]
        · exfalso
          simp only [hfu, if_true, Option.map_some] at hg
          rcases hg with hg | hg
          · cases hg
          · apply hg
            rw [find_append_cons ha]
            simp [hf]
    · cases h

/-- C55: without `override`, a registration is refused exactly when the type has a handler, or its type string is taken. -/
theorem C55_refused (sub : T → T → Bool) (typestr : H → String) (r : Registry T H) (x : Reg T H) (ho : x.override = false) :
    (¬ ∃ r', Registers sub typestr r x r') ↔ has r x.type = true ∨ ∃ g, getStr r (typestr x.handler) = some g := by
  unfold Registers add
  rw [ho]
  rcases hm : firstMatch x.type r.entries with _ | i
  · have : get r x.type = none := by rw [firstMatch_none] at hm; simp [get, hm]
    rcases hs : r.strs (typestr x.handler) with _ | g <;> simp [hs, has, this, getStr]
  · have : (get r x.type).isSome = true := by
      obtain ⟨a, f, g, b, hl, ha, hf, hs⟩ := firstMatch_some hm
      simp only [get, hl]
      rw [find_append_cons ha]
      simp [hf]
    simp [has, this]

/-- With `override` a registration is never refused. -/
theorem C55_override_succeeds (sub : T → T → Bool) (typestr : H → String) (r : Registry T H) (x : Reg T H) (ho : x.override = true) :
    ∃ r', Registers sub typestr r x r' := by
  unfold Registers add
  rw [ho]
  split <;> simp

/-- Type strings other than the handler's are looked up as before: also that of a handler that was replaced. -/
theorem C55_strings (sub : T → T → Bool) (typestr : H → String) (r r' : Registry T H) (x : Reg T H) (h : Registers sub typestr r x r')
    (s : String) (hs : s ≠ typestr x.handler) : getStr r' s = getStr r s := by
  unfold Registers add at h
  split at h
  · split at h
    · cases h
    · cases h; simp [getStr, setStr, hs]
  · split at h
    · cases h; simp [getStr, setStr, hs]
    · cases h

/-! ### Histories -/

/-- What every history keeps: type strings lead to handlers of that type string, and every handler in the list has an entry for its type string. -/
structure Consistent (typestr : H → String) (r : Registry T H) : Prop where
  strs : ∀ s h, r.strs s = some h → typestr h = s
  entries : ∀ x ∈ r.entries, ∃ h, r.strs (typestr x.2) = some h

theorem setStr_some {m : String → Option H} {s s' : String} {h : H} (hm : ∃ g, m s' = some g) : ∃ g, setStr m s h s' = some g := by
  unfold setStr; split
  · exact ⟨_, rfl⟩
  · exact hm

theorem consistent_add (sub : T → T → Bool) (typestr : H → String) {r r' : Registry T H} {x : Reg T H} (hr : Consistent typestr r)
    (h : Registers sub typestr r x r') : Consistent typestr r' := by
  have hstr : ∀ s g, setStr r.strs (typestr x.handler) x.handler s = some g → typestr g = s := by
    intro s g hg
    unfold setStr at hg
    split at hg
    · cases hg; rename_i h; exact h.symm
    · exact hr.strs s g hg
  have hself : ∃ g, setStr r.strs (typestr x.handler) x.handler (typestr x.handler) = some g := ⟨x.handler, by simp [setStr]⟩
  unfold Registers add at h
  split at h
  · split at h
    · cases h
    · cases h
      refine ⟨hstr, ?_⟩
      intro y hy
      rcases List.mem_append.mp hy with hy | hy
      · exact setStr_some (hr.entries y hy)
      · rw [List.mem_singleton] at hy; subst hy; exact hself
  · split at h
    · cases h
      refine ⟨hstr, ?_⟩
      intro y hy
      rcases List.mem_or_eq_of_mem_set hy with hy | rfl
      · exact setStr_some (hr.entries y hy)
      · exact hself
    · cases h

theorem consistent_addAll (sub : T → T → Bool) (typestr : H → String) : ∀ {l : List (Reg T H)} {r r' : Registry T H},
    Consistent typestr r → addAll sub typestr r l = some r' → Consistent typestr r'
  | [], r, r', hr, h => by cases h; exact hr
  | x :: l, r, r', hr, h => by
    simp only [addAll, Option.bind_eq_some_iff] at h
    obtain ⟨r1, h1, h2⟩ := h
    exact consistent_addAll sub typestr (consistent_add sub typestr hr h1) h2

theorem consistent_empty (typestr : H → String) : Consistent typestr ({} : Registry T H) := ⟨by simp, by simp⟩

/-- C55 for the names written in checkpoints: after every history of registrations, the type string of the handler that saves values of a type leads
to a handler with that type string. -/
theorem C55_type_strings (sub : T → T → Bool) (typestr : H → String) (l : List (Reg T H)) (r : Registry T H) (h : addAll sub typestr {} l = some r)
    (u : T) (g : H) (hg : get r u = some g) : ∃ g', getStr r (typestr g) = some g' ∧ typestr g' = typestr g := by
  have hc := consistent_addAll sub typestr (consistent_empty typestr) h
  simp only [get, Option.map_eq_some_iff] at hg
  obtain ⟨y, hy, rfl⟩ := hg
  obtain ⟨g', hg'⟩ := hc.entries y (List.mem_of_find?_eq_some hy)
  exact ⟨g', hg', hc.strs _ _ hg'⟩

theorem addAll_entries (sub : T → T → Bool) (typestr : H → String) : ∀ {l : List (Reg T H)} {r r' : Registry T H},
    (∀ x ∈ l, x.override = false) → addAll sub typestr r l = some r' →
    r'.entries = r.entries ++ l.map (fun x => (matcher sub x.type x.func, x.handler))
  | [], r, r', ho, h => by cases h; simp
  | x :: l, r, r', ho, h => by
    simp only [addAll, Option.bind_eq_some_iff] at h
    obtain ⟨r1, h1, h2⟩ := h
    rw [addAll_entries sub typestr (fun y hy => ho y (List.mem_cons_of_mem _ hy)) h2]
    have : r1.entries = r.entries ++ [(matcher sub x.type x.func, x.handler)] := by
      unfold add at h1
      split at h1
      · split at h1
        · cases h1
        · cases h1; rfl
      · rw [ho x (by simp)] at h1; simp at h1
    simp [this]

/-- C55 for histories without `override`: the handler of a type is that of the first registration for it. -/
theorem C55_first (sub : T → T → Bool) (typestr : H → String) (l : List (Reg T H)) (r : Registry T H) (ho : ∀ x ∈ l, x.override = false)
    (h : addAll sub typestr {} l = some r) (u : T) : get r u = (l.find? fun x => decide (x.Accepts sub u)).map (·.handler) := by
  simp only [get, addAll_entries sub typestr ho h, List.nil_append, List.find?_map, Option.map_map]
  congr 1
  congr 1
  funext x
  rw [Bool.eq_iff_iff, decide_eq_true_iff, accepts_iff]; rfl

/-- The stronger invariant without `override`: each handler is the one its type string leads to. -/
theorem addAll_exact (sub : T → T → Bool) (typestr : H → String) : ∀ {l : List (Reg T H)} {r r' : Registry T H},
    (∀ x ∈ l, x.override = false) → (∀ x ∈ r.entries, r.strs (typestr x.2) = some x.2) → addAll sub typestr r l = some r' →
    ∀ x ∈ r'.entries, r'.strs (typestr x.2) = some x.2
  | [], r, r', ho, hr, h => by cases h; exact hr
  | x :: l, r, r', ho, hr, h => by
    simp only [addAll, Option.bind_eq_some_iff] at h
    obtain ⟨r1, h1, h2⟩ := h
    refine addAll_exact sub typestr (fun y hy => ho y (List.mem_cons_of_mem _ hy)) ?_ h2
    unfold add at h1
    split at h1
    · split at h1
      · cases h1
      · rename_i hn
        cases h1
        rw [ho x (by simp)] at hn
        simp only [Bool.not_false, Bool.and_true, Option.isSome_iff_ne_none, ne_eq, Classical.not_not] at hn
        intro y hy
        rcases List.mem_append.mp hy with hy | hy
        · have h3 := hr y hy
          have : typestr y.2 ≠ typestr x.handler := by
            intro e; rw [e, hn] at h3; cases h3
          simp [setStr, this, h3]
        · rw [List.mem_singleton] at hy; subst hy; simp [setStr]
    · rw [ho x (by simp)] at h1; simp at h1

/-- C55 for histories without `override`: values are restored, by type string, with the very handler that saved them. -/
theorem C55_same_handler (sub : T → T → Bool) (typestr : H → String) (l : List (Reg T H)) (r : Registry T H) (ho : ∀ x ∈ l, x.override = false)
    (h : addAll sub typestr {} l = some r) (u : T) (g : H) (hg : get r u = some g) : getStr r (typestr g) = some g := by
  simp only [get, Option.map_eq_some_iff] at hg
  obtain ⟨y, hy, rfl⟩ := hg
  exact addAll_exact sub typestr ho (by simp) h y (List.mem_of_find?_eq_some hy)

/-! ### Where C55 fails -/

/-- C55 fails with `override`: overriding the handler of a subclass replaces the entry of its base class, which then has none — for whatever
classes, handlers and type strings. -/
theorem C55_override_fails (sub : T → T → Bool) (hsub : ∀ t, sub t t = true) (typestr : H → String) (base derived : T) (h g : H)
    (h1 : sub derived base = true) (h2 : sub base derived = false) :
    ∃ r r', addAll sub typestr {} [⟨base, h, none, false⟩] = some r ∧ get r base = some h ∧
      Registers sub typestr r ⟨derived, g, none, true⟩ r' ∧ get r' base = none := by
  refine ⟨⟨[(fun v => sub v base, h)], setStr (fun _ => none) (typestr h) h⟩,
    ⟨[(fun v => sub v derived, g)], setStr (setStr (fun _ => none) (typestr h) h) (typestr g) g⟩, ?_, ?_, ?_, ?_⟩
  · simp [addAll, add, firstMatch, matcher]
  · simp [get, hsub]
  · simp [Registers, add, firstMatch, matcher, h1]
  · simp [get, h2]

/-- C55 fails with `override`: handlers made with one type string for two types can be in the registry together, and the type string leads to the
last one. -/
theorem C55_shared_string_fails (sub : T → T → Bool) (hsub : ∀ t, sub t t = true) (typestr : H → String) (t u : T) (h g : H)
    (h1 : sub u t = false) (hs : typestr h = typestr g) :
    ∃ r, create sub typestr [(t, h), (u, g)] = some r ∧ get r t = some h ∧ getStr r (typestr h) = some g := by
  refine ⟨⟨[(fun v => sub v t, h), (fun v => sub v u, g)], setStr (setStr (fun _ => none) (typestr h) h) (typestr g) g⟩, ?_, ?_, ?_⟩
  · simp [create, addAll, add, firstMatch, matcher, h1]
  · simp [get, hsub]
  · simp [getStr, setStr, hs]

/-- C55 fails for a function that does not accept the type itself: the registration succeeds and the type has no handler. -/
theorem C55_function_fails (sub : T → T → Bool) (typestr : H → String) (t : T) (h : H) (f : T → Bool) (hf : f t = false) :
    ∃ r, Registers sub typestr {} ⟨t, h, some f, false⟩ r ∧ get r t = none ∧ has r t = false := by
  refine ⟨_, rfl, ?_, ?_⟩ <;> simp [has, get, matcher, hf]

/-! ## The hypotheses are met -/

/-- `int`, `bool` (a subclass of `int`) and `str`. -/
inductive ExT | int | bool | str
  deriving DecidableEq

def exSub (a b : ExT) : Bool := a = b || (a = .bool && b = .int)

def exRegs : List (Reg ExT Nat) := [⟨.bool, 1, none, false⟩, ⟨.int, 2, none, false⟩, ⟨.str, 3, none, false⟩]

example : ∀ t, exSub t t = true := by intro t; cases t <;> decide
example : (addAll exSub (fun n => s!"h{n}") {} exRegs).isSome = true ∧ ∀ x ∈ exRegs, x.override = false := by
  refine ⟨by simp [addAll, exRegs, add, firstMatch, matcher, exSub, setStr]; decide, by decide⟩
example : exSub .bool .int = true ∧ exSub .int .bool = false ∧ exSub .str .int = false ∧ exSub .int .str = false := by decide
example : ∃ r', Registers exSub (fun n => s!"h{n}") {} ⟨.int, 1, none, false⟩ r' := ⟨_, rfl⟩

end Verif.TypeRegistry
