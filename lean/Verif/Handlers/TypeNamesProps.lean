import Verif.Handlers.TypeNames
import Verif.Handlers.CompositeProps

/-!
# Properties of registering handlers and of restoring with recorded handlers (C136)
-/

namespace Verif.HandlerTypes

open Verif.Assoc

variable {A : Type} [DecidableEq A]

/-! ### Specification -/

/-- A registration that is for saving or restoring, of a class of arguments. -/
def Valid (x : Registration A) : Bool := (x.forSave || x.forRestore) && x.isArgs

/-- Two classes have the same fully qualified name. -/
def SameName (c d : Cls) : Prop := c.module_ = d.module_ ∧ c.qualname = d.qualname

instance (c d : Cls) : Decidable (SameName c d) := by unfold SameName; infer_instance

/-- The handler classes registered under a name, in order. -/
def claimants (h : List (Registration A)) (t : String) : List Cls := (h.filter fun x => Valid x && x.cls.typestr = t).map (·.cls)

/-- The last of the classes with the same fully qualified name as the first. -/
def winner : List Cls → Option Cls
  | [] => none
  | c :: l => (c :: l.filter fun d => SameName c d).getLast?

/-- Every class of arguments is registered with one handler class, and every name belongs to one. -/
structure Consistent (h : List (Registration A)) : Prop where
  args : ∀ x ∈ h, ∀ y ∈ h, x.args = y.args → x.cls = y.cls
  types : ∀ x ∈ h, ∀ y ∈ h, x.cls.typestr = y.cls.typestr → x.cls = y.cls

/-- A handler class can be used without arguments: it is registered for saving and for restoring, and it and the arguments for restoring can be constructed. -/
structure Usable (h : List (Registration A)) (constructs : Cls → Bool) (default : A → Bool) (c : Cls) : Prop where
  save : ∃ x ∈ h, Valid x = true ∧ x.forSave = true ∧ x.cls = c
  restore : ∃ x ∈ h, Valid x = true ∧ x.forRestore = true ∧ x.cls = c
  constructs : constructs c = true
  default : ∀ x ∈ h, x.cls = c → x.forRestore = true → default x.args = true

/-! ### Lemmas -/

theorem mem_put {κ ν : Type} [DecidableEq κ] (m : List (κ × ν)) (k : κ) (v : ν) (p : κ × ν) (h : p ∈ put m k v) : p = (k, v) ∨ p ∈ m := by
  induction m with
  | nil => simpa [put] using h
  | cons q m ih =>
    simp only [put] at h
    split at h
    · rcases List.mem_cons.1 h with h | h
      · exact .inl h
      · exact .inr (List.mem_cons_of_mem _ h)
    · rcases List.mem_cons.1 h with h | h
      · exact .inr (by simp [h])
      · rcases ih h with h | h
        · exact .inl h
        · exact .inr (List.mem_cons_of_mem _ h)

theorem put_mem {κ ν : Type} [DecidableEq κ] (m : List (κ × ν)) (k : κ) (v : ν) : (k, v) ∈ put m k v := by
  induction m with
  | nil => simp [put]
  | cons q m ih =>
    simp only [put]
    split
    · simp
    · exact List.mem_cons_of_mem _ ih

theorem put_keep {κ ν : Type} [DecidableEq κ] (m : List (κ × ν)) (k : κ) (v : ν) (p : κ × ν) (h : p ∈ m) (hk : p.1 = k → p.2 = v) : p ∈ put m k v := by
  by_cases e : p.1 = k
  · obtain ⟨a, b⟩ := p
    simp only at e hk
    subst e
    rw [hk rfl]; exact put_mem _ _ _
  · induction m with
    | nil => cases h
    | cons q m ih =>
      simp only [put]
      rcases List.mem_cons.1 h with h | h
      · subst h; rw [if_neg e]; simp
      · split
        · exact List.mem_cons_of_mem _ h
        · exact List.mem_cons_of_mem _ (ih h)

theorem register_invalid (r : Reg A) (x : Registration A) (h : Valid x = false) : register r x = (r, false) := by
  obtain ⟨a, i, c, s, t⟩ := x
  cases i <;> cases s <;> cases t <;> simp_all [Valid, register]

theorem register_valid (r : Reg A) (x : Registration A) (h : Valid x = true) : register r x =
    (⟨if x.forSave then put r.save x.args x.cls else r.save, if x.forRestore then put r.restore x.args x.cls else r.restore,
      (addType r.types x.cls).1⟩, (addType r.types x.cls).2) := by
  obtain ⟨a, i, c, s, t⟩ := x
  cases i <;> cases s <;> cases t <;> simp_all [Valid, register]

theorem registerAll_cons (r : Reg A) (x : Registration A) (l) : registerAll r (x :: l) = registerAll (register r x).1 l := rfl

theorem getLast_filter (c d : Cls) (l : List Cls) (h : SameName c d) : (c :: (d :: l).filter fun e => SameName c e).getLast? =
    (d :: l.filter fun e => SameName d e).getLast? := by
  have e : (l.filter fun e => SameName c e) = l.filter fun e => SameName d e := by
    refine List.filter_congr fun x _ => ?_
    unfold SameName at *
    simp only [h.1, h.2]
  rw [List.filter_cons_of_pos (by simpa using h), e]
  simp [List.getLast?_cons_cons]

theorem types_get (t : String) : ∀ (l : List (Registration A)) (r : Reg A), getType (registerAll r l).types t =
    match getType r.types t with
    | some p => (p :: (claimants l t).filter fun d => SameName p d).getLast?
    | none => winner (claimants l t)
  | [], r => by
    show getType r.types t = _
    cases getType r.types t <;> simp [claimants, winner]
  | x :: l, r => by
    rw [registerAll_cons, types_get t l]
    cases hv : Valid x with
    | false =>
      rw [register_invalid r x hv]
      have : claimants (x :: l) t = claimants l t := by simp [claimants, hv]
      rw [this]
    | true =>
      rw [register_valid r x hv]
      simp only
      by_cases ht : x.cls.typestr = t
      · have hc : claimants (x :: l) t = x.cls :: claimants l t := by simp [claimants, hv, ht]
        rw [hc]
        unfold addType
        rw [ht]
        simp only [getType]
        cases hg : Assoc.get r.types t with
        | none => simp only [get_put_self, winner]
        | some p =>
          simp only
          by_cases hs : SameName p x.cls
          · rw [getLast_filter _ _ _ hs, if_neg (by simpa [SameName] using hs)]
            by_cases hp : p = x.cls
            · rw [if_pos hp, hg, hp]
            · rw [if_neg hp]; simp only [get_put_self]
          · rw [if_pos (by simpa [SameName] using hs), hg, List.filter_cons_of_neg (by simpa using hs)]
      · have hc : claimants (x :: l) t = claimants l t := by simp [claimants, ht]
        have hg : getType (addType r.types x.cls).1 t = getType r.types t := by
          unfold addType getType
          repeat' split
          all_goals first | rfl | exact get_put_ne _ _ (Ne.symm ht)
        rw [hc, hg]

theorem save_mem (a : A) (c : Cls) : ∀ (l : List (Registration A)) (r : Reg A), (a, c) ∈ (registerAll r l).save →
    (a, c) ∈ r.save ∨ ∃ x ∈ l, x.args = a ∧ x.cls = c ∧ x.forSave = true
  | [], r, h => .inl h
  | x :: l, r, h => by
    rcases save_mem a c l _ h with h | ⟨y, hy, h⟩
    · cases hv : Valid x with
      | false => simp only [register_invalid r x hv] at h; exact .inl h
      | true =>
        simp only [register_valid r x hv] at h
        split at h
        · rename_i hr
          rcases mem_put _ _ _ _ h with h | h
          · cases h; exact .inr ⟨x, by simp, rfl, rfl, hr⟩
          · exact .inl h
        · exact .inl h
    · exact .inr ⟨y, List.mem_cons_of_mem _ hy, h⟩

theorem restore_mem (a : A) (c : Cls) : ∀ (l : List (Registration A)) (r : Reg A), (a, c) ∈ (registerAll r l).restore →
    (a, c) ∈ r.restore ∨ ∃ x ∈ l, x.args = a ∧ x.cls = c ∧ x.forRestore = true
  | [], r, h => .inl h
  | x :: l, r, h => by
    rcases restore_mem a c l _ h with h | ⟨y, hy, h⟩
    · cases hv : Valid x with
      | false => simp only [register_invalid r x hv] at h; exact .inl h
      | true =>
        simp only [register_valid r x hv] at h
        split at h
        · rename_i hr
          rcases mem_put _ _ _ _ h with h | h
          · cases h; exact .inr ⟨x, by simp, rfl, rfl, hr⟩
          · exact .inl h
        · exact .inl h
    · exact .inr ⟨y, List.mem_cons_of_mem _ hy, h⟩

theorem kept (a : A) (c : Cls) : ∀ (l : List (Registration A)) (r : Reg A), (∀ x ∈ l, x.args = a → x.cls = c) →
    ((a, c) ∈ r.save → (a, c) ∈ (registerAll r l).save) ∧ ((a, c) ∈ r.restore → (a, c) ∈ (registerAll r l).restore)
  | [], r, _ => ⟨id, id⟩
  | x :: l, r, h => by
    obtain ⟨h1, h2⟩ := kept a c l (register r x).1 (fun y hy => h y (List.mem_cons_of_mem _ hy))
    rw [registerAll_cons]
    cases hv : Valid x with
    | false => rw [register_invalid r x hv] at h1 h2 ⊢; exact ⟨h1, h2⟩
    | true =>
      rw [register_valid r x hv] at h1 h2 ⊢
      refine ⟨fun hm => h1 ?_, fun hm => h2 ?_⟩
      · simp only
        split
        · exact put_keep _ _ _ _ hm fun e => (h x (by simp) e.symm).symm
        · exact hm
      · simp only
        split
        · exact put_keep _ _ _ _ hm fun e => (h x (by simp) e.symm).symm
        · exact hm

theorem mem_registered (x : Registration A) (hv : Valid x = true) : ∀ (l : List (Registration A)) (r : Reg A), (∀ y ∈ l, y.args = x.args → y.cls = x.cls) →
    x ∈ l → (x.forSave = true → (x.args, x.cls) ∈ (registerAll r l).save) ∧ (x.forRestore = true → (x.args, x.cls) ∈ (registerAll r l).restore)
  | y :: l, r, h, hm => by
    rw [registerAll_cons]
    rcases List.mem_cons.1 hm with hm | hm
    · subst hm
      obtain ⟨h1, h2⟩ := kept x.args x.cls l (register r x).1 (fun y hy => h y (List.mem_cons_of_mem _ hy))
      rw [register_valid r x hv] at h1 h2 ⊢
      exact ⟨fun e => h1 (by simp only [e, if_true]; exact put_mem _ _ _), fun e => h2 (by simp only [e, if_true]; exact put_mem _ _ _)⟩
    · exact mem_registered x hv l _ (fun y hy => h y (List.mem_cons_of_mem _ hy)) hm

/-- In a consistent program a usable class is found by its name, has arguments for restoring that can be constructed, and these belong to it. -/
theorem usable_found (h : List (Registration A)) (hc : Consistent h) (constructs : Cls → Bool) (default : A → Bool) (c : Cls)
    (hu : Usable h constructs default c) : getType (program h).types c.typestr = some c ∧
    ∃ s a, ((program h).global constructs).args c = some (s, a) ∧ default a = true ∧ ((program h).global constructs).cls a = some c := by
  obtain ⟨x, hx, hxv, hxs, hxc⟩ := hu.save
  obtain ⟨y, hy, hyv, hyr, hyc⟩ := hu.restore
  constructor
  · rw [program, types_get]
    simp only [getType, get_nil]
    have hall : ∀ d ∈ claimants h c.typestr, d = c := by
      intro d hd
      simp only [claimants, List.mem_map, List.mem_filter, Bool.and_eq_true, decide_eq_true_eq] at hd
      obtain ⟨z, ⟨hz, -, hzt⟩, rfl⟩ := hd
      rw [← hxc]
      exact hc.types z hz x hx (by rw [hzt, hxc])
    have hmem : c ∈ claimants h c.typestr := by
      simp only [claimants, List.mem_map, List.mem_filter, Bool.and_eq_true, decide_eq_true_eq]
      exact ⟨x, ⟨hx, hxv, by rw [hxc]⟩, hxc⟩
    generalize claimants h c.typestr = cs at hall hmem
    cases cs with
    | nil => cases hmem
    | cons d l =>
      simp only [winner]
      have hne : (d :: l.filter fun e => SameName d e) ≠ [] := by simp
      rw [List.getLast?_eq_some_getLast hne]
      congr 1
      have := List.getLast_mem hne
      refine hall _ ?_
      rcases List.mem_cons.1 this with e | e
      · rw [e]; simp
      · exact List.mem_cons_of_mem _ (List.mem_filter.1 e).1
  · have hs : (x.args, c) ∈ (program h).save := by
      have := (mem_registered x hxv h ⟨[], [], []⟩ (fun z hz e => hc.args z hz x hx e) hx).1 hxs
      rwa [hxc] at this
    have hr : (y.args, c) ∈ (program h).restore := by
      have := (mem_registered y hyv h ⟨[], [], []⟩ (fun z hz e => hc.args z hz y hy e) hy).2 hyr
      rwa [hyc] at this
    have hs' : ((program h).save.find? fun p => p.2 = c).isSome := List.find?_isSome.2 ⟨_, hs, by simp⟩
    have hr' : ((program h).restore.find? fun p => p.2 = c).isSome := List.find?_isSome.2 ⟨_, hr, by simp⟩
    obtain ⟨⟨s, cs⟩, hs'⟩ := Option.isSome_iff_exists.1 hs'
    obtain ⟨⟨a, ca⟩, hr'⟩ := Option.isSome_iff_exists.1 hr'
    have e1 : ca = c := by simpa using List.find?_some hr'
    subst e1
    have hma := List.mem_of_find?_eq_some hr'
    rcases restore_mem a ca h _ hma with hm | ⟨z, hz, hza, hzc, hzr⟩
    · cases hm
    refine ⟨s, a, ?_, ?_, ?_⟩
    · simp [Composite.Global.args, Reg.global, hs', hr']
    · rw [← hza]; exact hu.default z hz hzc hzr
    · simp only [Composite.Global.cls, Reg.global]
      cases hf : (program h).save.find? fun p => p.1 = a with
      | some p =>
        obtain ⟨b, d⟩ := p
        have e2 : b = a := by simpa using List.find?_some hf
        subst e2
        rcases save_mem b d h _ (List.mem_of_find?_eq_some hf) with hm | ⟨w, hw, hwa, hwc, -⟩
        · cases hm
        simp only [Option.some.injEq]
        rw [← hwc, ← hzc]
        exact hc.args w hw z hz (by rw [hwa, hza])
      | none =>
        simp only
        have hsome : ((program h).restore.find? fun p => p.1 = a).isSome := List.find?_isSome.2 ⟨_, hma, by simp⟩
        obtain ⟨⟨b, d⟩, hf'⟩ := Option.isSome_iff_exists.1 hsome
        have e2 : b = a := by simpa using List.find?_some hf'
        subst e2
        rw [hf']
        rcases restore_mem b d h _ (List.mem_of_find?_eq_some hf') with hm | ⟨w, hw, hwa, hwc, -⟩
        · cases hm
        simp only [Option.map_some, Option.some.injEq]
        rw [← hwc, ← hzc]
        exact hc.args w hw z hz (by rw [hwa, hza])

theorem get_none_of {r : Composite.Registry A Cls} {i : Option String} {a : A} (h : ∀ x ∈ r, x.1.1 ≠ i) : Composite.get r i a = none := by
  unfold Composite.get
  rw [Option.map_eq_none_iff, List.find?_eq_none]
  intro x hx e
  simp only [decide_eq_true_eq] at e
  exact h x hx (by rw [e])

/-- The handler of a new item is of the class of the arguments. -/
theorem getOrSet_new (g : Composite.Global A Cls) (s : Composite.State A Cls) (item : String) (a sv rs : A) (c : Cls) (hc : g.cls a = some c)
    (hk : g.constructs c = true) (hargs : g.args c = some (sv, rs)) (hun : s.unregistered = none) (hd : item ∉ s.deferred)
    (hr : ∀ x ∈ s.registry, x.1.1 ≠ some item) (hn : ∀ x ∈ s.registry, x.1.1 ≠ none) :
    ∃ s', Composite.getOrSet g s item (some a) = (some ⟨c, s.next⟩, s') ∧ s'.unregistered = none ∧ s'.deferred = item :: s.deferred ∧
      ∀ x ∈ s'.registry, x ∈ s.registry ∨ x.1.1 = some item := by
  have h1 : ∀ b, Composite.get s.registry (some item) b = none := fun b => get_none_of hr
  have h2 : Composite.get s.registry none a = none := get_none_of hn
  by_cases e : rs = sv
  · refine ⟨{ s with next := s.next + 1, deferred := item :: s.deferred, registry := s.registry ++ [((some item, sv), ⟨c, s.next⟩)] }, ?_, hun, rfl, ?_⟩
    · simp [Composite.getOrSet, h1, h2, hc, hk, hun, hd, Composite.addGlobal, hargs, Composite.add, Composite.has, e]
    · intro x hx
      rcases List.mem_append.1 hx with hx | hx
      · exact .inl hx
      · simp only [List.mem_singleton] at hx; exact .inr (by rw [hx])
  · have h3 : Composite.get (s.registry ++ [((some item, sv), ⟨c, s.next⟩)]) (some item) rs = none := by
      unfold Composite.get
      rw [Option.map_eq_none_iff, List.find?_eq_none]
      intro x hx e'
      simp only [decide_eq_true_eq] at e'
      rcases List.mem_append.1 hx with hx | hx
      · exact hr x hx (by rw [e'])
      · simp only [List.mem_singleton] at hx
        rw [hx] at e'
        simp only [Prod.mk.injEq, true_and] at e'
        exact e e'.symm
    refine ⟨{ s with next := s.next + 1, deferred := item :: s.deferred, registry := (s.registry ++ [((some item, sv), ⟨c, s.next⟩)]) ++
      [((some item, rs), ⟨c, s.next⟩)] }, ?_, hun, rfl, ?_⟩
    · simp only [Composite.getOrSet, h1, h2, hc, hk, hun, hd, Composite.addGlobal, hargs, Composite.add, Composite.has, h3, e, Option.isSome_none,
        Bool.false_eq_true, if_false, if_true, ne_eq, not_false_eq_true, Bool.true_eq_false]
    · intro x hx
      rcases List.mem_append.1 hx with hx | hx
      · rcases List.mem_append.1 hx with hx | hx
        · exact .inl hx
        · simp only [List.mem_singleton] at hx; exact .inr (by rw [hx])
      · simp only [List.mem_singleton] at hx; exact .inr (by rw [hx])

theorem restoreItems_new (g : Composite.Global A Cls) (existing : List String) (cls : String → Cls) (arg : String → A)
    (ha : ∀ i ∈ existing, g.cls (arg i) = some (cls i) ∧ g.constructs (cls i) = true ∧ ∃ p, g.args (cls i) = some p) :
    ∀ (l : List String) (s : Composite.State A Cls), l.Nodup → (∀ i ∈ l, i ∈ existing) → s.unregistered = none → (∀ i ∈ l, i ∉ s.deferred) →
      (∀ i ∈ l, ∀ x ∈ s.registry, x.1.1 ≠ some i) → (∀ x ∈ s.registry, x.1.1 ≠ none) →
      (Composite.restoreItems g existing s (l.map fun i => (i, some (arg i)))).2.1 = true ∧
      (Composite.restoreItems g existing s (l.map fun i => (i, some (arg i)))).1.map (fun x => (x.1, x.2.cls)) = l.map fun i => (i, cls i)
  | [], s, _, _, _, _, _, _ => by simp [Composite.restoreItems]
  | i :: l, s, hnd, hex, hun, hd, hr, hn => by
    obtain ⟨h1, h2, ⟨sv, rs⟩, h3⟩ := ha i (hex i (by simp))
    obtain ⟨s', e, f1, f2, f3⟩ := getOrSet_new g s i (arg i) sv rs (cls i) h1 h2 h3 hun (hd i (by simp)) (hr i (by simp)) hn
    rw [List.nodup_cons] at hnd
    have ih := restoreItems_new g existing cls arg ha l s' hnd.2 (fun j hj => hex j (List.mem_cons_of_mem _ hj)) f1
      (fun j hj => by
        rw [f2, List.mem_cons, not_or]
        exact ⟨by rintro rfl; exact hnd.1 hj, hd j (List.mem_cons_of_mem _ hj)⟩)
      (fun j hj x hx => by
        rcases f3 x hx with hx | hx
        · exact hr j (List.mem_cons_of_mem _ hj) x hx
        · rw [hx]; intro e; cases e; exact hnd.1 hj)
      (fun x hx => by
        rcases f3 x hx with hx | hx
        · exact hn x hx
        · rw [hx]; simp)
    simp only [List.map_cons, Composite.restoreItems, hex i (by simp), if_true, e]
    exact ⟨ih.1, by rw [ih.2]⟩

theorem defaultArgs_new (g : Composite.Global A Cls) (next : Nat) (typeOf : String → Option Cls) (default : A → Bool) (cls : String → Cls) (arg : String → A) :
    ∀ l : List String, (∀ i ∈ l, typeOf i = some (cls i) ∧ (∃ s, g.args (cls i) = some (s, arg i)) ∧ default (arg i) = true) →
      Composite.defaultArgs g (Composite.initEmpty next) typeOf default l = some (l.map fun i => (i, some (arg i)))
  | [], _ => rfl
  | i :: l, h => by
    obtain ⟨h1, ⟨s, h2⟩, h3⟩ := h i (by simp)
    have ih := defaultArgs_new g next typeOf default cls arg l (fun j hj => h j (List.mem_cons_of_mem _ hj))
    have hi : Composite.itemHandler (Composite.initEmpty next : Composite.State A Cls) i = none := by
      simp [Composite.itemHandler, Composite.initEmpty, Composite.unique]
    simp only [Composite.defaultArgs, hi, h1, Option.bind_eq_bind, Option.bind_some, h2, h3, if_true, ih, Option.pure_def, List.map_cons]

/-! ### Theorems -/

/-- C136: a name stands for the last class registered under it that has the same fully qualified name as the first class registered under it. -/
theorem C136_name (h : List (Registration A)) (t : String) : getType (program h).types t = winner (claimants h t) := by
  rw [program, types_get]; rfl

/-- C136: a registration is refused exactly if it is for nothing, of something that is not a class of arguments, or of a handler class whose name
belongs to a class with another fully qualified name. -/
theorem C136_refused (h : List (Registration A)) (x : Registration A) : (register (program h) x).2 = false ↔
    (x.forSave = false ∧ x.forRestore = false) ∨ x.isArgs = false ∨ ∃ c, winner (claimants h x.cls.typestr) = some c ∧ ¬ SameName c x.cls := by
  cases hv : Valid x with
  | false =>
    rw [register_invalid _ x hv]
    obtain ⟨a, i, c, s, t⟩ := x
    cases i <;> cases s <;> cases t <;> simp_all [Valid]
  | true =>
    rw [register_valid _ x hv]
    have hn := C136_name h x.cls.typestr
    have e : ¬ ((x.forSave = false ∧ x.forRestore = false) ∨ x.isArgs = false) := by
      obtain ⟨a, i, c, s, t⟩ := x
      cases i <;> cases s <;> cases t <;> simp_all [Valid]
    rw [← or_assoc]
    simp only [e, false_or, ← hn, getType, addType]
    cases Assoc.get (program h).types x.cls.typestr with
    | none => simp
    | some p =>
      by_cases hs : SameName p x.cls
      · have hs' : p.module_ = x.cls.module_ ∧ p.qualname = x.cls.qualname := hs
        by_cases hp : p = x.cls <;> simp [SameName, hp, hs']
      · have hs' : ¬ (p.module_ = x.cls.module_ ∧ p.qualname = x.cls.qualname) := hs
        simp only [if_pos hs', Option.some.injEq, true_iff]
        exact ⟨p, rfl, hs⟩

/-- C136: a refused registration, and a repeated one, leave the meaning of all names as it was. -/
theorem C136_refused_names (h : List (Registration A)) (x : Registration A) (hx : (register (program h) x).2 = false ∨ x ∈ h ∧ Consistent h) (t : String) :
    getType (register (program h) x).1.types t = getType (program h).types t := by
  cases hv : Valid x with
  | false => rw [register_invalid _ x hv]
  | true =>
    rw [register_valid _ x hv] at hx ⊢
    simp only at hx ⊢
    unfold addType at hx ⊢
    cases hg : Assoc.get (program h).types x.cls.typestr with
    | none =>
      exfalso
      rw [hg] at hx
      simp only [Bool.true_eq_false, false_or] at hx
      have h1 := C136_name h x.cls.typestr
      rw [getType, hg] at h1
      have hm : x.cls ∈ claimants h x.cls.typestr := by
        simp only [claimants, List.mem_map, List.mem_filter, Bool.and_eq_true, decide_eq_true_eq]
        exact ⟨x, ⟨hx.1, hv, rfl⟩, rfl⟩
      revert h1 hm
      cases claimants h x.cls.typestr with
      | nil => intro _ hm; cases hm
      | cons d l =>
        intro h1 _
        simp only [winner] at h1
        rw [List.getLast?_eq_some_getLast (by simp)] at h1
        cases h1
    | some p =>
      rw [hg] at hx
      simp only at hx ⊢
      split
      · rfl
      · split
        · rfl
        · rename_i hs hp
          rw [if_neg hs, if_neg hp] at hx
          simp only [Bool.true_eq_false, false_or] at hx
          have h1 := C136_name h x.cls.typestr
          rw [getType, hg] at h1
          exfalso
          apply hp
          have hall : ∀ d ∈ claimants h x.cls.typestr, d = x.cls := by
            intro d hd
            simp only [claimants, List.mem_map, List.mem_filter, Bool.and_eq_true, decide_eq_true_eq] at hd
            obtain ⟨z, ⟨hz, -, hzt⟩, rfl⟩ := hd
            exact hx.2.types z hz x hx.1 hzt
          revert h1 hall
          cases claimants h x.cls.typestr with
          | nil => intro h1; simp [winner] at h1
          | cons d l =>
            intro h1 hall
            simp only [winner] at h1
            have := List.mem_of_getLast? h1.symm
            refine hall p ?_
            rcases List.mem_cons.1 this with e | e
            · rw [e]; simp
            · exact List.mem_cons_of_mem _ (List.mem_filter.1 e).1

/-- C136: the arguments that belong to a handler class were registered with it, for saving and for restoring. -/
theorem C136_args (h : List (Registration A)) (constructs : Cls → Bool) (c : Cls) (s a : A)
    (hg : ((program h).global constructs).args c = some (s, a)) :
    (∃ x ∈ h, x.args = s ∧ x.cls = c ∧ x.forSave = true) ∧ ∃ x ∈ h, x.args = a ∧ x.cls = c ∧ x.forRestore = true := by
  simp only [Composite.Global.args, Reg.global] at hg
  split at hg
  · rename_i p q hp hq
    simp only [Option.some.injEq, Prod.mk.injEq] at hg
    obtain ⟨p1, p2⟩ := p
    obtain ⟨q1, q2⟩ := q
    simp only at hg
    have e1 : p2 = c := by simpa using List.find?_some hp
    have e2 : q2 = c := by simpa using List.find?_some hq
    obtain ⟨rfl, rfl⟩ := hg
    subst e1
    subst e2
    constructor
    · rcases save_mem _ _ h _ (List.mem_of_find?_eq_some hp) with hm | hm
      · cases hm
      · exact hm
    · rcases restore_mem _ _ h _ (List.mem_of_find?_eq_some hq) with hm | hm
      · cases hm
      · exact hm
  · cases hg

/-- C136: a program that registered the handlers consistently restores all items of a checkpoint without being told how: each with a handler of the class
whose name the checkpoint has for it. -/
theorem C136_restores (h : List (Registration A)) (hc : Consistent h) (constructs : Cls → Bool) (default : A → Bool) (recorded : String → Option String)
    (existing : List String) (hnd : existing.Nodup) (next : Nat) (cls : String → Cls)
    (hu : ∀ i ∈ existing, Usable h constructs default (cls i) ∧ recorded i = some (cls i).typestr) :
    (restoreAll (program h) constructs default recorded existing next).2 = true ∧
    (restoreAll (program h) constructs default recorded existing next).1.map (fun x => (x.1, x.2.cls)) = existing.map fun i => (i, cls i) := by
  by_cases he : existing = []
  · subst he
    simp [restoreAll, Composite.restore, Composite.defaultArgs, Composite.restoreItems]
  have hne : Nonempty A := by
    cases hx : existing with
    | nil => exact absurd hx he
    | cons j l =>
      obtain ⟨-, s, a, -⟩ := usable_found h hc constructs default (cls j) (hu j (by rw [hx]; simp)).1
      exact ⟨a⟩
  have key : ∀ i, ∃ a, i ∈ existing → (∃ s, ((program h).global constructs).args (cls i) = some (s, a)) ∧ default a = true ∧
      ((program h).global constructs).cls a = some (cls i) := by
    intro i
    by_cases hi : i ∈ existing
    · obtain ⟨-, s, a, h1, h2, h3⟩ := usable_found h hc constructs default (cls i) (hu i hi).1
      exact ⟨a, fun _ => ⟨⟨s, h1⟩, h2, h3⟩⟩
    · obtain ⟨a⟩ := hne
      exact ⟨a, fun hi' => absurd hi' hi⟩
  let arg : String → A := fun i => Classical.choose (key i)
  have harg := fun i => Classical.choose_spec (key i)
  have hd := defaultArgs_new ((program h).global constructs) next (typeOf (program h) recorded) default cls arg existing (fun i hi =>
    ⟨by simp only [typeOf, (hu i hi).2, Option.bind_some]; exact (usable_found h hc constructs default (cls i) (hu i hi).1).1,
      (harg i hi).1, (harg i hi).2.1⟩)
  have hr := restoreItems_new ((program h).global constructs) existing cls arg (fun i hi =>
    ⟨(harg i hi).2.2, (hu i hi).1.constructs, by obtain ⟨s, hs⟩ := (harg i hi).1; exact ⟨_, hs⟩⟩) existing (Composite.initEmpty next) hnd (fun i hi => hi) rfl
    (fun i _ => by simp [Composite.initEmpty]) (fun i _ x hx => by simp [Composite.initEmpty] at hx) (fun x hx => by simp [Composite.initEmpty] at hx)
  simp only [restoreAll, Composite.restore, if_true, hd]
  exact hr

/-- C136: what one program saved, another restores without being told how, with handlers of the same names: if it registered, consistently, handler classes
of those names that can be used without arguments. -/
theorem C136_roundtrip (g : Composite.Global A Cls) (s0 s' : Composite.State A Cls) (hm : Composite.Made g s0) (history : List (Composite.Op A Cls))
    (args : List (String × Option A)) (hargs : (args.map (·.1)).Nodup) (saved : List (String × Composite.Handler Cls))
    (hs : Composite.save g (Composite.run g s0 history) args = (saved, true, s')) (h : List (Registration A)) (hc : Consistent h) (constructs : Cls → Bool)
    (default : A → Bool) (next : Nat) (hu : ∀ x ∈ saved, ∃ c, Usable h constructs default c ∧ c.typestr = x.2.cls.typestr) :
    let recorded := Composite.itemTypeStr Cls.typestr s' (fun _ => none)
    (restoreAll (program h) constructs default recorded (args.map (·.1)) next).2 = true ∧
    (restoreAll (program h) constructs default recorded (args.map (·.1)) next).1.map (fun x => (x.1, x.2.cls.typestr)) =
      saved.map fun x => (x.1, x.2.cls.typestr) := by
  intro recorded
  have hkeys : saved.map (·.1) = args.map (·.1) := (Composite.saveItems_spec g args _ hs).2.2.1 rfl
  have hrec : ∀ x ∈ saved, recorded x.1 = some x.2.cls.typestr := fun x hx =>
    Composite.C56_recorded_handler g Cls.typestr s0 s' hm history args saved hs x.1 x.2 hx
  have key : ∀ i, ∃ c, i ∈ args.map (·.1) → Usable h constructs default c ∧ recorded i = some c.typestr := by
    intro i
    by_cases hi : i ∈ args.map (·.1)
    · rw [← hkeys] at hi
      obtain ⟨x, hx, rfl⟩ := List.mem_map.1 hi
      obtain ⟨c, hcu, hct⟩ := hu x hx
      exact ⟨c, fun _ => ⟨hcu, by rw [hct]; exact hrec x hx⟩⟩
    · exact ⟨⟨0, "", "", ""⟩, fun hi' => absurd hi' hi⟩
  let cls : String → Cls := fun i => Classical.choose (key i)
  have hcls := fun i => Classical.choose_spec (key i)
  obtain ⟨h1, h2⟩ := C136_restores h hc constructs default recorded (args.map (·.1)) hargs next cls hcls
  refine ⟨h1, ?_⟩
  have e : ∀ l : List (String × Composite.Handler Cls), l.map (fun x => (x.1, x.2.cls.typestr)) =
      (l.map fun x => (x.1, x.2.cls)).map fun x => (x.1, x.2.typestr) := by intro l; simp
  rw [e, h2, ← hkeys, List.map_map, List.map_map]
  refine List.map_congr_left fun x hx => ?_
  have := (hcls x.1 (by rw [← hkeys]; exact List.mem_map_of_mem hx)).2
  have e' := Option.some.inj ((hrec x hx).symm.trans this)
  simp only [Function.comp, Prod.mk.injEq, true_and]
  exact e'.symm

/-- C136: an item whose handler is not known, by the name in the checkpoint, is never restored with some other handler: there is an error. -/
theorem C136_unknown (r : Reg A) (constructs : Cls → Bool) (default : A → Bool) (recorded : String → Option String) (existing : List String) (next : Nat)
    (i : String) (hi : i ∈ existing) (hr : ∀ t, recorded i = some t → getType r.types t = none) :
    restoreAll r constructs default recorded existing next = ([], false) := by
  have ht : typeOf r recorded i = none := by
    unfold typeOf
    cases hx : recorded i with
    | none => rfl
    | some t => exact hr t hx
  have key : ∀ l : List String, i ∈ l →
      Composite.defaultArgs (r.global constructs) (Composite.initEmpty next) (typeOf r recorded) default l = none := by
    intro l
    induction l with
    | nil => intro h; cases h
    | cons j l ih =>
      intro hm
      have hj : Composite.itemHandler (Composite.initEmpty next : Composite.State A Cls) j = none := by
        simp [Composite.itemHandler, Composite.initEmpty, Composite.unique]
      rcases List.mem_cons.1 hm with hm | hm
      · subst hm
        simp [Composite.defaultArgs, hj, ht]
      · simp only [Composite.defaultArgs, hj, ih hm, Option.bind_eq_bind, Option.bind_none]
        cases typeOf r recorded j with
        | none => rfl
        | some c =>
          simp only [Option.bind_some]
          cases (r.global constructs).args c with
          | none => rfl
          | some p => simp
  simp [restoreAll, Composite.restore, key existing hi]

/-! ### Findings -/

/-- C136 (finding): a registration that is refused because of the name of the handler still takes effect: its arguments are saved with the refused handler
class, under a name that stands for another class. -/
theorem C136_refused_fails (h : List (Registration A)) (x : Registration A) (hv : Valid x = true) (hs : x.forSave = true)
    (hr : (register (program h) x).2 = false) (constructs : Cls → Bool) :
    ((register (program h) x).1.global constructs).cls x.args = some x.cls ∧
    ∃ c, getType (register (program h) x).1.types x.cls.typestr = some c ∧ ¬ SameName c x.cls := by
  constructor
  · have hm : ∀ m : List (A × Cls), (put m x.args x.cls).find? (fun p => p.1 = x.args) = some (x.args, x.cls) := by
      intro m
      induction m with
      | nil => simp [put]
      | cons q m ih =>
        simp only [put]
        split
        · simp
        · rename_i hq; simp [hq, ih]
    rw [register_valid _ x hv]
    simp only [Composite.Global.cls, Reg.global, hs, if_true, hm]
  · rcases (C136_refused h x).1 hr with e | e | ⟨c, h1, h2⟩
    · rw [hs] at e; cases e.1
    · simp [Valid, e] at hv
    · exact ⟨c, by rw [C136_refused_names h x (.inl hr), C136_name, h1], h2⟩

/-- Two classes of handlers that were made with one fully qualified name, as by calling a function twice that defines a class. -/
def localA : Cls := ⟨0, "main", "make.<locals>.Handler", "main.make.<locals>.Handler"⟩
def localB : Cls := ⟨1, "main", "make.<locals>.Handler", "main.make.<locals>.Handler"⟩

/-- C136 (finding): what was saved with the handler class that was made first is restored with the one that was made last, in the same program. -/
theorem C136_same_name_fails :
    let h : List (Registration Nat) := [⟨0, true, localA, true, true⟩, ⟨1, true, localB, true, true⟩]
    let g := (program h).global (fun _ => true)
    let s := Composite.save g (Composite.initEmpty 0) [("x", some 0)]
    s.1 = [("x", ⟨localA, 0⟩)] ∧ s.2.1 = true ∧
    restoreAll (program h) (fun _ => true) (fun _ => true) (Composite.itemTypeStr Cls.typestr s.2.2 (fun _ => none)) ["x"] 1 = ([("x", ⟨localB, 1⟩)], true) := by
  decide

/-- Two handler classes with different names. -/
def handlerA : Cls := ⟨0, "a", "A", "a.A"⟩
def handlerB : Cls := ⟨1, "b", "B", "b.B"⟩

/-- C136 (finding): when the arguments for restoring with one handler are registered for saving with another, an item is restored with the other handler. -/
theorem C136_shared_args_fails :
    let h : List (Registration Nat) := [⟨0, true, handlerA, true, false⟩, ⟨1, true, handlerA, false, true⟩, ⟨1, true, handlerB, true, false⟩,
      ⟨2, true, handlerB, false, true⟩]
    restoreAll (program h) (fun _ => true) (fun _ => true) (fun _ => some "a.A") ["x"] 0 = ([("x", ⟨handlerB, 0⟩)], true) := by
  decide

/-! ### Non-vacuity -/

/-- Handlers A and B with arguments for saving and restoring. -/
def demoRegs : List (Registration Nat) := [⟨0, true, handlerA, true, false⟩, ⟨1, true, handlerA, false, true⟩, ⟨2, true, handlerB, true, true⟩]

/-- C136: the hypotheses are met: the registrations are consistent, both handlers are usable, a checkpoint with three items is saved, and restored by
another program; a handler with a taken name is refused. -/
theorem C136_nonvacuous : Consistent demoRegs ∧ Usable demoRegs (fun _ => true) (fun a => a ≠ 0) handlerA ∧
    Usable demoRegs (fun _ => true) (fun a => a ≠ 0) handlerB ∧
    (let s := Composite.save ((program demoRegs).global (fun _ => true)) (Composite.initEmpty 0) [("x", some 0), ("y", some 2), ("z", some 0)]
     s.2.1 = true ∧ s.1 = [("x", ⟨handlerA, 0⟩), ("y", ⟨handlerB, 1⟩), ("z", ⟨handlerA, 2⟩)] ∧
     restoreAll (program demoRegs) (fun _ => true) (fun a => a ≠ 0) (Composite.itemTypeStr Cls.typestr s.2.2 (fun _ => none)) ["x", "y", "z"] 5 =
       ([("x", ⟨handlerA, 5⟩), ("y", ⟨handlerB, 6⟩), ("z", ⟨handlerA, 7⟩)], true)) ∧
    (register (program demoRegs) ⟨3, true, ⟨7, "c", "A", "a.A"⟩, true, false⟩).2 = false ∧
    Valid (⟨3, true, ⟨7, "c", "A", "a.A"⟩, true, false⟩ : Registration Nat) = true := by
  refine ⟨⟨by decide, by decide⟩, ⟨⟨_, .head _, by decide⟩, ⟨_, .tail _ (.head _), by decide⟩, rfl, by decide⟩,
    ⟨⟨_, .tail _ (.tail _ (.head _)), by decide⟩, ⟨_, .tail _ (.tail _ (.head _)), by decide⟩, rfl, by decide⟩, by decide, by decide, by decide⟩

end Verif.HandlerTypes
