import Verif.Export.Obm
import Verif.Export.ObmSpec
import Mathlib.Data.List.Perm.Subperm

/-!
# C125: an Orbax Model export has every function with its own arguments, or is refused
-/

namespace Verif.Export.Obm

open Spec

theorem hasKey_iff {A : Type} (m : List (String × A)) (k : String) :
    hasKey m k = true ↔ ∃ v, (k, v) ∈ m := by
  simp only [hasKey, List.any_eq_true, beq_iff_eq]
  constructor
  · rintro ⟨⟨k', v⟩, h, rfl⟩
    exact ⟨v, h⟩
  · rintro ⟨v, h⟩
    exact ⟨(k, v), h, rfl⟩

theorem sameKeys_iff {A B : Type} (a : List (String × A)) (b : List (String × B)) :
    sameKeys a b = true ↔ ∀ k, (∃ v, (k, v) ∈ a) ↔ ∃ v, (k, v) ∈ b := by
  simp only [sameKeys, Bool.and_eq_true, List.all_eq_true, hasKey_iff]
  constructor
  · rintro ⟨h1, h2⟩ k
    exact ⟨fun ⟨v, h⟩ => h1 _ h, fun ⟨v, h⟩ => h2 _ h⟩
  · intro h
    exact ⟨fun e he => (h e.1).1 ⟨e.2, he⟩, fun e he => (h e.1).2 ⟨e.2, he⟩⟩

/-- When `shared` gives a value. -/
theorem shared_ok {A : Type} [DecidableEq A] (field : Options → A) (keys : Option (List String))
    (o : OptArg) (v : A) :
    shared field keys o = .ok v ↔
      (∃ a, SomeOptions o a) ∧ (∀ a, SomeOptions o a → field a = v) ∧
      ∀ m, o = .perFn m → ∀ k ∈ keys.getD [], ∃ a, (k, a) ∈ m := by
  cases o with
  | one p =>
    simp only [shared, Except.ok.injEq, SomeOptions, OptionsOf]
    constructor
    · rintro rfl
      refine ⟨⟨p, "", rfl⟩, ?_, ?_⟩
      · rintro a ⟨_, rfl⟩
        rfl
      · intro m h
        cases h
    · rintro ⟨_, h, _⟩
      exact h p ⟨"", rfl⟩
  | perFn m =>
    cases m with
    | nil =>
      simp only [shared, SomeOptions, OptionsOf]
      constructor
      · intro h
        cases h
      · rintro ⟨⟨a, k, h⟩, _⟩
        cases h
    | cons e m =>
      obtain ⟨k0, o0⟩ := e
      simp only [shared]
      by_cases hk : ((keys.getD []).all fun x => hasKey ((k0, o0) :: m) x) = true
      · rw [if_neg (by rw [hk]; decide)]
        have hk' : ∀ k ∈ keys.getD [], ∃ a, (k, a) ∈ (k0, o0) :: m := by
          simpa only [List.all_eq_true, hasKey_iff] using hk
        by_cases ha : ((k0, o0) :: m).all (fun e => field e.2 == field o0) = true
        · rw [if_pos ha]
          simp only [List.all_eq_true, beq_iff_eq] at ha
          constructor
          · intro h
            cases h
            refine ⟨⟨o0, k0, List.mem_cons_self⟩, ?_, ?_⟩
            · rintro a ⟨k, h⟩
              exact ha _ h
            · intro m' h
              cases h
              exact hk'
          · rintro ⟨_, h, _⟩
            rw [h o0 ⟨k0, List.mem_cons_self⟩]
        · rw [if_neg ha]
          constructor
          · intro h
            cases h
          · rintro ⟨_, h, _⟩
            refine absurd ?_ ha
            simp only [List.all_eq_true, beq_iff_eq]
            intro e he
            rw [h e.2 ⟨e.1, he⟩, h o0 ⟨k0, List.mem_cons_self⟩]
      · rw [if_pos (by simpa using hk)]
        constructor
        · intro h
          cases h
        · rintro ⟨_, _, h⟩
          refine absurd ?_ hk
          simp only [List.all_eq_true, hasKey_iff]
          exact h _ rfl

theorem normArg_ok (fs : List (String × Fn)) (arg : Obj) (r : List (String × Obj)) :
    normArg fs arg = .ok r →
      ArgFits (.many fs) arg ∧ ∀ k v, (k, v) ∈ r ↔ GivenArg (.many fs) arg k v := by
  cases arg with
  | none =>
    simp only [normArg, Except.ok.injEq]
    rintro rfl
    refine ⟨trivial, ?_⟩
    intro k v
    simp only [List.mem_map, GivenArg]
    constructor
    · rintro ⟨⟨k', f⟩, h, he⟩
      cases he
      exact ⟨⟨f, h⟩, rfl⟩
    · rintro ⟨⟨f, h⟩, rfl⟩
      exact ⟨(k, f), h, rfl⟩
  | leaf n =>
    intro h
    cases h
  | map m =>
    simp only [normArg]
    split
    · rename_i h
      rw [sameKeys_iff] at h
      intro e
      cases e
      exact ⟨h, fun k v => Iff.rfl⟩
    · intro h
      cases h

theorem normArg_succ (fs : List (String × Fn)) (arg : Obj) (h : ArgFits (.many fs) arg) :
    ∃ r, normArg fs arg = .ok r := by
  cases arg with
  | none => exact ⟨_, rfl⟩
  | leaf n => exact absurd h id
  | map m =>
    refine ⟨m, ?_⟩
    simp only [normArg]
    rw [if_pos ((sameKeys_iff _ _).2 h)]

theorem insertKey_perm {A : Type} (e : String × A) (m : List (String × A)) : (insertKey e m).Perm (e :: m) := by
  induction m with
  | nil => exact List.Perm.refl _
  | cons f m ih =>
    simp only [insertKey]
    split
    · exact List.Perm.refl _
    · exact (ih.cons f).trans (List.Perm.swap _ _ _)

theorem sortKeys_perm {A : Type} (m : List (String × A)) : (sortKeys m).Perm m := by
  induction m with
  | nil => exact List.Perm.refl _
  | cons e m ih => exact (insertKey_perm e _).trans (ih.cons e)

theorem bf16Fn_given (fn : FnArg) (k : String) (f : Fn) : GivenFn (bf16Fn fn) k f ↔ GivenFn fn k f := by
  cases fn with
  | one g => exact Iff.rfl
  | many m =>
    simp only [bf16Fn, GivenFn]
    exact (sortKeys_perm m).mem_iff

theorem bf16Fn_fits (fn : FnArg) (arg : Obj) : ArgFits (bf16Fn fn) arg ↔ ArgFits fn arg := by
  cases fn with
  | one g => exact Iff.rfl
  | many m =>
    cases arg with
    | none => exact Iff.rfl
    | leaf n => exact Iff.rfl
    | map s =>
      simp only [bf16Fn, ArgFits, (sortKeys_perm m).mem_iff]

theorem bf16Fn_arg (fn : FnArg) (arg : Obj) (k : String) (v : Obj) :
    GivenArg (bf16Fn fn) arg k v ↔ GivenArg fn arg k v := by
  cases fn with
  | one g => exact Iff.rfl
  | many m =>
    cases arg with
    | none => simp only [bf16Fn, GivenArg, (sortKeys_perm m).mem_iff]
    | leaf n => exact Iff.rfl
    | map s => exact Iff.rfl

theorem normalize_ok (fn : FnArg) (shape symbols : Obj) (fns : List (String × Fn))
    (sh sy : List (String × Obj)) (h : normalize fn shape symbols = .ok (fns, sh, sy)) :
    (∃ k, Named fn k) ∧ ArgFits fn shape ∧ ArgFits fn symbols ∧
    (∀ k f, (k, f) ∈ fns ↔ GivenFn fn k f) ∧ (∀ k v, (k, v) ∈ sh ↔ GivenArg fn shape k v) ∧
    (∀ k v, (k, v) ∈ sy ↔ GivenArg fn symbols k v) ∧ (∀ m, fn = .many m → fns = m) ∧
    (∀ f, fn = .one f → fns = [(defaultKey, f)]) := by
  cases fn with
  | one f =>
    simp only [normalize, Except.ok.injEq, Prod.mk.injEq] at h
    obtain ⟨rfl, rfl, rfl⟩ := h
    refine ⟨⟨_, f, rfl, rfl⟩, trivial, trivial, ?_, ?_, ?_, ?_, ?_⟩
    · intro k g
      simp [GivenFn, defaultKey]
    · intro k g
      simp [GivenArg, defaultKey]
    · intro k g
      simp [GivenArg, defaultKey]
    · intro m h
      cases h
    · intro g h
      cases h
      rfl
  | many m =>
    cases m with
    | nil => cases h
    | cons e m =>
      simp only [normalize] at h
      cases h1 : normArg (e :: m) shape with
      | error x =>
        rw [h1] at h
        cases h
      | ok r1 =>
        rw [h1] at h
        cases h2 : normArg (e :: m) symbols with
        | error x =>
          rw [h2] at h
          cases h
        | ok r2 =>
          rw [h2] at h
          cases h
          obtain ⟨a1, b1⟩ := normArg_ok _ _ _ h1
          obtain ⟨a2, b2⟩ := normArg_ok _ _ _ h2
          refine ⟨⟨e.1, e.2, List.mem_cons_self⟩, a1, a2, fun k f => Iff.rfl, b1, b2, ?_, ?_⟩
          · intro m' h
            cases h
            rfl
          · intro f h
            cases h

theorem normalize_succ (fn : FnArg) (shape symbols : Obj) (h0 : ∃ k, Named fn k)
    (h1 : ArgFits fn shape) (h2 : ArgFits fn symbols) : ∃ r, normalize fn shape symbols = .ok r := by
  cases fn with
  | one f => exact ⟨_, rfl⟩
  | many m =>
    cases m with
    | nil =>
      obtain ⟨k, f, h⟩ := h0
      cases h
    | cons e m =>
      obtain ⟨r1, h1⟩ := normArg_succ _ _ h1
      obtain ⟨r2, h2⟩ := normArg_succ _ _ h2
      exact ⟨(e :: m, r1, r2), by simp only [normalize, h1, h2]; rfl⟩

theorem constraintsFor_ok (fns : List (String × Fn)) (c : Constraints) (r : List (String × List String))
    (fn : FnArg) (hf : ∀ k f, (k, f) ∈ fns ↔ GivenFn fn k f)
    (hd : Dict fns) (hc : ∀ m, c = .perFn m → Dict m)
    (h : constraintsFor fns c = .ok r) :
    ConstraintsFit fn c ∧ ∀ k cs, (k, cs) ∈ r ↔ GivenConstraints fn c k cs := by
  have hn : ∀ (cs : List String) k ds, (k, ds) ∈ fns.map (fun e => (e.1, cs)) ↔ Named fn k ∧ ds = cs := by
    intro cs k ds
    simp only [List.mem_map, Named]
    constructor
    · rintro ⟨⟨k', f⟩, h, he⟩
      cases he
      exact ⟨⟨f, (hf _ _).1 h⟩, rfl⟩
    · rintro ⟨⟨f, h⟩, rfl⟩
      exact ⟨(k, f), (hf _ _).2 h, rfl⟩
  cases c with
  | none =>
    simp only [constraintsFor, Except.ok.injEq] at h
    subst h
    exact ⟨trivial, hn []⟩
  | same cs =>
    simp only [constraintsFor, Except.ok.injEq] at h
    subst h
    exact ⟨trivial, hn cs⟩
  | wrong => cases h
  | perFn m =>
    simp only [constraintsFor] at h
    split at h
    · cases h
    · rename_i hl
      split at h
      · rename_i ha
        injection h with h
        subst h
        refine ⟨?_, fun k cs => Iff.rfl⟩
        simp only [List.all_eq_true, hasKey_iff] at ha
        have hs : fns.map (·.1) ⊆ m.map (·.1) := by
          intro k hk
          obtain ⟨e, he, rfl⟩ := List.mem_map.1 hk
          obtain ⟨cs, hcs⟩ := ha e he
          exact List.mem_map.2 ⟨(e.1, cs), hcs, rfl⟩
        have hp : (fns.map (·.1)).Perm (m.map (·.1)) :=
          (hd.subperm hs).perm_of_length_le (by simp only [List.length_map]; omega)
        intro k
        constructor
        · rintro ⟨f, h⟩
          exact ha _ ((hf _ _).2 h)
        · rintro ⟨cs, h⟩
          have : k ∈ fns.map (·.1) := hp.mem_iff.2 (List.mem_map.2 ⟨(k, cs), h, rfl⟩)
          obtain ⟨e, he, rfl⟩ := List.mem_map.1 this
          exact ⟨e.2, (hf _ _).1 he⟩
      · cases h

theorem constraintsFor_succ (fns : List (String × Fn)) (c : Constraints)
    (fn : FnArg) (hf : ∀ k f, (k, f) ∈ fns ↔ GivenFn fn k f)
    (hd : Dict fns) (hc : ∀ m, c = .perFn m → Dict m) (h : ConstraintsFit fn c) :
    ∃ r, constraintsFor fns c = .ok r := by
  cases c with
  | none => exact ⟨_, rfl⟩
  | same cs => exact ⟨_, rfl⟩
  | wrong => exact absurd h id
  | perFn m =>
    refine ⟨m, ?_⟩
    have hp : (fns.map (·.1)).Perm (m.map (·.1)) := by
      rw [List.perm_ext_iff_of_nodup hd (hc m rfl)]
      intro k
      simp only [List.mem_map]
      constructor
      · rintro ⟨e, he, rfl⟩
        obtain ⟨cs, hcs⟩ := (h e.1).1 ⟨e.2, (hf _ _).1 he⟩
        exact ⟨_, hcs, rfl⟩
      · rintro ⟨e, he, rfl⟩
        obtain ⟨f, hf'⟩ := (h e.1).2 ⟨e.2, he⟩
        exact ⟨_, (hf _ _).2 hf', rfl⟩
    have hl := hp.length_eq
    simp only [List.length_map] at hl
    simp only [constraintsFor]
    rw [if_neg (by omega), if_pos]
    simp only [List.all_eq_true, hasKey_iff]
    intro e he
    exact (h e.1).1 ⟨e.2, (hf _ _).1 he⟩

theorem lowering_ok (allowed : List String) (p : Option Platforms) (r : Option (List String)) :
    lowering allowed p = .ok r ↔
      (∀ q ∈ PlatformNames p, q.toLower ∈ allowed) ∧
      r = p.map (fun _ => (PlatformNames p).map String.toLower) := by
  cases p with
  | none => simp [lowering, PlatformNames, eq_comm]
  | some q =>
    cases q with
    | one p =>
      simp only [lowering, PlatformNames]
      split
      · rename_i h
        simp at h
        simp [h, eq_comm]
      · rename_i h
        simp at h
        simp [h]
    | many ps =>
      simp only [lowering, PlatformNames]
      split
      · rename_i h
        simp at h
        simp only [Except.ok.injEq, Option.map_some]
        exact ⟨fun e => ⟨h, e.symm⟩, fun e => e.2.symm⟩
      · rename_i h
        simp only [reduceCtorEq, false_iff, not_and]
        intro h'
        refine absurd ?_ h
        simpa using h'

/-- What `checkpoint` returns. -/
theorem checkpoint_ok (keys : Option (List String)) (o : OptArg) (p w : Option String) :
    checkpoint keys o = .ok (p, w) ↔
      (∃ a, SomeOptions o a) ∧
      (∀ m, o = .perFn m → ∀ k ∈ keys.getD [], ∃ a, (k, a) ∈ m) ∧
      (∀ a, SomeOptions o a → a.checkpointPath = p) ∧
      (p ≠ none → ∃ w', ∀ a, SomeOptions o a → a.weightsName = w') ∧
      (∀ a, SomeOptions o a → w = p.map (fun _ => 
        match a.weightsName with | none => "weights" | some n => if n = "" then "weights" else n)) := by
  unfold checkpoint
  constructor
  · intro h
    cases h1 : shared (·.checkpointPath) keys o with
    | error e =>
      rw [h1] at h
      cases h
    | ok q =>
      obtain ⟨x1, x2, x3⟩ := (shared_ok _ _ _ _).1 h1
      rw [h1] at h
      cases q with
      | none =>
        cases h
        exact ⟨x1, x3, x2, fun h => absurd rfl h, fun a _ => rfl⟩
      | some q =>
        cases h2 : shared (·.weightsName) keys o with
        | error e =>
          simp only [h2] at h
          cases h
        | ok u =>
          obtain ⟨y1, y2, y3⟩ := (shared_ok _ _ _ _).1 h2
          simp only [h2] at h
          cases h
          refine ⟨x1, x3, x2, fun _ => ⟨u, y2⟩, ?_⟩
          intro a ha
          rw [y2 a ha]
          cases u <;> rfl
  · rintro ⟨⟨a, ha⟩, hk, hp, hw, hr⟩
    have h1 : shared (·.checkpointPath) keys o = .ok p := (shared_ok _ _ _ _).2 ⟨⟨a, ha⟩, hp, hk⟩
    rw [h1]
    cases p with
    | none =>
      have := hr a ha
      simp only [Option.map_none] at this
      subst this
      rfl
    | some q =>
      obtain ⟨w', hw'⟩ := hw (by simp)
      have h2 : shared (·.weightsName) keys o = .ok w' := (shared_ok _ _ _ _).2 ⟨⟨a, ha⟩, hw', hk⟩
      have := hr a ha
      rw [hw' a ha] at this
      subst this
      show (do let w ← shared (·.weightsName) keys o; _) = _
      rw [h2]
      cases w' <;> rfl

theorem bind_ok {A B : Type} (x : Except Err A) (f : A → Except Err B) (r : B) :
    (x >>= f) = .ok r ↔ ∃ v, x = .ok v ∧ f v = .ok r := by
  cases x with
  | error e =>
    constructor
    · intro h
      cases h
    · rintro ⟨v, h, _⟩
      cases h
  | ok v =>
    constructor
    · intro h
      exact ⟨v, rfl, h⟩
    · rintro ⟨v', h, h'⟩
      cases h
      exact h'

/-- The steps of a successful construction. -/
theorem mkObm_steps (allowed : List String) (params : List Leaf) (fn : FnArg) (shape symbols : Obj)
    (o : OptArg) (x : ObmModule) :
    mkObm allowed params fn shape symbols none (some o) = .ok x ↔
      (shape.isNone && !symbols.isNone) = false ∧
      ∃ keys, optionKeys fn o = .ok keys ∧ ∃ bf, shared (·.bf16) keys o = .ok bf ∧
      ∃ fns shapes syms, normalize (if bf then bf16Fn fn else fn) shape symbols = .ok (fns, shapes, syms) ∧
      ∃ mesh, shared (·.mesh) keys o = .ok mesh ∧ ∃ c, shared (·.constraints) keys o = .ok c ∧
      ∃ cons, constraintsFor fns c = .ok cons ∧ ∃ p, shared (·.platforms) keys o = .ok p ∧
      ∃ plats, lowering allowed p = .ok plats ∧ ∃ f, shared (·.xlaFlags) keys o = .ok f ∧
      ∃ g, shared (·.persistXla) keys o = .ok g ∧ ∃ shlo, shared (·.saveShlo) keys o = .ok shlo ∧
      ∃ path weights, checkpoint keys o = .ok (path, weights) ∧
      x = { options := o, fns := fns, shapes := shapes, symbols := syms,
            params := if bf then params.map bf16Leaf else params, mesh := mesh,
            constraints := cons, platforms := plats, saveShlo := shlo,
            checkpointPath := path, weightsName := weights } := by
  unfold mkObm
  cases hs : (shape.isNone && !symbols.isNone) with
  | true =>
    constructor
    · intro h
      cases h
    · rintro ⟨h, _⟩
      cases h
  | false =>
    simp only [chooseOptions, Bool.false_eq_true, if_false, true_and, pure_bind, bind_ok, Prod.exists]
    constructor
    · rintro ⟨_, h0, keys, h1, bf, h2, fns, shapes, syms, h3, mesh, h4, c, h5, cons, h6, p, h7, plats, h8,
        f, h9, g, h10, shlo, h11, path, weights, h12, h13⟩
      cases h0
      cases h13
      exact ⟨keys, h1, bf, h2, fns, shapes, syms, h3, mesh, h4, c, h5, cons, h6, p, h7, plats, h8,
        f, h9, g, h10, shlo, h11, path, weights, h12, rfl⟩
    · rintro ⟨keys, h1, bf, h2, fns, shapes, syms, h3, mesh, h4, c, h5, cons, h6, p, h7, plats, h8,
        f, h9, g, h10, shlo, h11, path, weights, h12, rfl⟩
      exact ⟨o, rfl, keys, h1, bf, h2, fns, shapes, syms, h3, mesh, h4, c, h5, cons, h6, p, h7, plats, h8,
        f, h9, g, h10, shlo, h11, path, weights, h12, rfl⟩

theorem optionKeys_ok (fn : FnArg) (o : OptArg) (keys : Option (List String)) :
    optionKeys fn o = .ok keys ↔
      (∀ m, o = .perFn m → ∃ fs, fn = .many fs) ∧
      (match fn, o with
       | .many m, .perFn _ => keys = some (m.map (·.1))
       | _, _ => keys = none) := by
  cases o with
  | one p => cases fn <;> simp [optionKeys, eq_comm]
  | perFn m =>
    cases fn with
    | one f =>
      simp only [optionKeys, reduceCtorEq, false_iff, not_and]
      intro h
      obtain ⟨fs, h⟩ := h m rfl
      cases h
    | many fs => simp [optionKeys, eq_comm]

/-- The keys that the options must have are the names of the functions. -/
theorem keys_named (fn : FnArg) (o : OptArg) (keys : Option (List String)) (h : optionKeys fn o = .ok keys)
    (m : List (String × Options)) (hm : o = .perFn m) (k : String) :
    k ∈ keys.getD [] ↔ Named fn k := by
  obtain ⟨h1, h2⟩ := (optionKeys_ok _ _ _).1 h
  obtain ⟨fs, rfl⟩ := h1 m hm
  subst hm
  simp only at h2
  subst h2
  simp only [Option.getD_some, List.mem_map, Named, GivenFn, Prod.exists, exists_and_right, exists_eq_right]

theorem named_bf (fn : FnArg) (b : Bool) (k : String) (f : Fn) :
    GivenFn (if b then bf16Fn fn else fn) k f ↔ GivenFn fn k f := by
  cases b with
  | true => exact bf16Fn_given fn k f
  | false => exact Iff.rfl

theorem fits_bf (fn : FnArg) (b : Bool) (arg : Obj) : ArgFits (if b then bf16Fn fn else fn) arg ↔ ArgFits fn arg := by
  cases b with
  | true => exact bf16Fn_fits fn arg
  | false => exact Iff.rfl

theorem arg_bf (fn : FnArg) (b : Bool) (arg : Obj) (k : String) (v : Obj) :
    GivenArg (if b then bf16Fn fn else fn) arg k v ↔ GivenArg fn arg k v := by
  cases b with
  | true => exact bf16Fn_arg fn arg k v
  | false => exact Iff.rfl

theorem dict_bf (fn : FnArg) (b : Bool) (hd : ∀ m, fn = .many m → Dict m) (m : List (String × Fn))
    (h : (if b then bf16Fn fn else fn) = .many m) : Dict m := by
  cases b with
  | false => exact hd m h
  | true =>
    cases fn with
    | one f => cases h
    | many m' =>
      simp only [if_true, bf16Fn, FnArg.many.injEq] at h
      subst h
      have hp := (sortKeys_perm m').map (·.1)
      exact hp.nodup_iff.2 (hd m' rfl)

theorem dict_fns (fn : FnArg) (b : Bool) (hd : ∀ m, fn = .many m → Dict m) (shape symbols : Obj)
    (fns : List (String × Fn)) (sh sy : List (String × Obj))
    (h : normalize (if b then bf16Fn fn else fn) shape symbols = .ok (fns, sh, sy)) : Dict fns := by
  obtain ⟨_, _, _, _, _, _, h1, h2⟩ := normalize_ok _ _ _ _ _ _ h
  cases hg : (if b then bf16Fn fn else fn) with
  | one f =>
    rw [h2 f hg]
    simp [Dict]
  | many m =>
    rw [h1 m hg]
    exact dict_bf fn b hd m hg

theorem isNone_iff (o : Obj) : o.isNone = true ↔ o = .none := by
  cases o <;> simp [Obj.isNone]

/-- A module for an Orbax Model comes from `mkObm`. -/
theorem mkModule_obm (allowed : List String) (params : List Leaf) (fn : FnArg) (shape symbols : Obj)
    (args : TfArgs) (kw : Option (List Kw)) (o : Option OptArg) (x : Module) :
    mkModule allowed .obm params fn shape symbols args kw o = .ok x ↔
      (kw = none ∨ o = none) ∧ ∃ m, mkObm allowed params fn shape symbols kw o = .ok m ∧ x = .obm m := by
  cases kw with
  | none =>
    simp only [mkModule, Option.isSome_none, Bool.false_and, Bool.false_eq_true, if_false, pure_bind, bind_ok,
      true_or, true_and]
    constructor
    · rintro ⟨m, h, e⟩
      cases e
      exact ⟨m, h, rfl⟩
    · rintro ⟨m, h, rfl⟩
      exact ⟨m, h, rfl⟩
  | some kw =>
    cases o with
    | none =>
      simp only [mkModule, Option.isSome_none, Bool.and_false, Bool.false_eq_true, if_false, pure_bind, bind_ok,
        or_true, true_and]
      constructor
      · rintro ⟨m, h, e⟩
        cases e
        exact ⟨m, h, rfl⟩
      · rintro ⟨m, h, rfl⟩
        exact ⟨m, h, rfl⟩
    | some o =>
      constructor
      · intro h
        cases h
      · rintro ⟨h | h, _⟩ <;> cases h

/-- C125: the construction of a module for an Orbax Model succeeds exactly if the
arguments are in order. -/
theorem C125_accepted (allowed : List String) (params : List Leaf) (fn : FnArg) (shape symbols : Obj)
    (args : TfArgs) (o : OptArg) (hd : Dicts fn o) :
    (∃ x, mkModule allowed .obm params fn shape symbols args none (some o) = .ok x) ↔
      InOrder allowed fn shape symbols o := by
  have hm : (∃ x, mkModule allowed .obm params fn shape symbols args none (some o) = .ok x) ↔
      ∃ x, mkObm allowed params fn shape symbols none (some o) = .ok x := by
    simp only [mkModule_obm, true_or, true_and]
    constructor
    · rintro ⟨x, m, h, _⟩
      exact ⟨m, h⟩
    · rintro ⟨x, h⟩
      exact ⟨_, x, h, rfl⟩
  rw [hm]
  constructor
  · rintro ⟨x, h⟩
    obtain ⟨h0, keys, h1, bf, h2, fns, shapes, syms, h3, mesh, h4, c, h5, cons, h6, p, h7, plats, h8,
        f, h9, g, h10, shlo, h11, path, weights, h12, rfl⟩ := (mkObm_steps _ _ _ _ _ _ _).1 h
    obtain ⟨n1, n2, n3, n4, n5, n6, n7, n8⟩ := normalize_ok _ _ _ _ _ _ h3
    obtain ⟨s0, s1, s2⟩ := (shared_ok _ _ _ _).1 h2
    have s3 := ((shared_ok _ _ _ _).1 h4).2.1
    have s4 := ((shared_ok _ _ _ _).1 h5).2.1
    have s5 := ((shared_ok _ _ _ _).1 h7).2.1
    have s6 := ((shared_ok _ _ _ _).1 h9).2.1
    have s7 := ((shared_ok _ _ _ _).1 h10).2.1
    have s8 := ((shared_ok _ _ _ _).1 h11).2.1
    obtain ⟨_, _, c1, c2, c3⟩ := (checkpoint_ok _ _ _ _).1 h12
    have hdc : ∀ m, c = .perFn m → Dict m := by
      intro m hm
      obtain ⟨a, ha⟩ := s0
      exact hd.constraints a m ha (by rw [s4 a ha]; exact hm)
    obtain ⟨k1, k2⟩ := constraintsFor_ok fns c cons fn
      (fun k f => (n4 k f).trans (named_bf fn bf k f)) (dict_fns fn bf hd.fns _ _ _ _ _ h3) hdc h6
    refine ⟨?_, ?_, ?_, ?_, ?_, ?_, ?_, ?_⟩
    · obtain ⟨k, f, hf⟩ := n1
      exact ⟨k, f, (named_bf fn bf k f).1 hf⟩
    · intro hsh
      rw [(isNone_iff shape).2 hsh] at h0
      simp only [Bool.true_and, Bool.not_eq_false'] at h0
      exact (isNone_iff symbols).1 h0
    · exact (fits_bf _ _ _).1 n2
    · exact (fits_bf _ _ _).1 n3
    · intro m hm
      refine ⟨((optionKeys_ok _ _ _).1 h1).1 m hm, ?_⟩
      intro k hk
      exact s2 m hm k ((keys_named fn o keys h1 m hm k).2 hk)
    · intro a b ha hb
      refine ⟨by rw [s1 a ha, s1 b hb], by rw [s3 a ha, s3 b hb], by rw [s4 a ha, s4 b hb],
        by rw [s5 a ha, s5 b hb], by rw [s6 a ha, s6 b hb], by rw [s7 a ha, s7 b hb],
        by rw [s8 a ha, s8 b hb], by rw [c1 a ha, c1 b hb], ?_⟩
      intro hne
      rw [c1 a ha] at hne
      obtain ⟨w, hw⟩ := c2 hne
      rw [hw a ha, hw b hb]
    · intro a ha
      rw [s4 a ha]
      exact k1
    · intro a ha
      rw [s5 a ha]
      exact ((lowering_ok _ _ _).1 h8).1
  · intro hi
    have ha : ∃ a, SomeOptions o a := by
      cases o with
      | one p => exact ⟨p, "", rfl⟩
      | perFn m =>
        obtain ⟨k, hk⟩ := hi.fns
        obtain ⟨a, ha⟩ := (hi.perFn m rfl).2 k hk
        exact ⟨a, k, ha⟩
    obtain ⟨a, ha⟩ := ha
    have hkeys : ∃ keys, optionKeys fn o = .ok keys := by
      cases fn with
      | one f =>
        cases o with
        | one p => exact ⟨_, rfl⟩
        | perFn m =>
          obtain ⟨⟨fs, h⟩, _⟩ := hi.perFn m rfl
          cases h
      | many fs => cases o <;> exact ⟨_, rfl⟩
    obtain ⟨keys, hkeys⟩ := hkeys
    have hk : ∀ m, o = .perFn m → ∀ k ∈ keys.getD [], ∃ a, (k, a) ∈ m := by
      intro m hm k hk
      exact (hi.perFn m hm).2 k ((keys_named fn o keys hkeys m hm k).1 hk)
    have hag := fun b hb => hi.agree b a hb ha
    have hsh : ∀ {A : Type} [DecidableEq A] (field : Options → A),
        (∀ b, SomeOptions o b → field b = field a) → shared field keys o = .ok (field a) :=
      fun field h => (shared_ok _ _ _ _).2 ⟨⟨a, ha⟩, h, hk⟩
    have hn : ∃ r, normalize (if a.bf16 then bf16Fn fn else fn) shape symbols = .ok r := by
      refine normalize_succ _ _ _ ?_ ((fits_bf _ _ _).2 hi.shapeFits) ((fits_bf _ _ _).2 hi.symbolsFit)
      obtain ⟨k, f, hf⟩ := hi.fns
      exact ⟨k, f, (named_bf _ _ _ _).2 hf⟩
    obtain ⟨⟨fns, shapes, syms⟩, h3⟩ := hn
    have hc : ∃ r, constraintsFor fns a.constraints = .ok r := by
      obtain ⟨n1, n2, n3, n4, n5, n6, n7, n8⟩ := normalize_ok _ _ _ _ _ _ h3
      exact constraintsFor_succ fns _ fn (fun k f => (n4 k f).trans (named_bf fn _ k f))
        (dict_fns fn _ hd.fns _ _ _ _ _ h3) (fun m hm => hd.constraints a m ha hm) (hi.constraints a ha)
    obtain ⟨cons, hc⟩ := hc
    have hck : ∃ w, checkpoint keys o = .ok (a.checkpointPath, w) := by
      refine ⟨a.checkpointPath.map (fun _ =>
        match a.weightsName with | none => "weights" | some n => if n = "" then "weights" else n),
        (checkpoint_ok _ _ _ _).2 ⟨⟨a, ha⟩, hk, fun b hb => (hag b hb).2.2.2.2.2.2.2.1, ?_, ?_⟩⟩
      · intro hne
        refine ⟨a.weightsName, fun b hb => (hag b hb).2.2.2.2.2.2.2.2 ?_⟩
        rw [(hag b hb).2.2.2.2.2.2.2.1]
        exact hne
      · intro b hb
        cases hp : a.checkpointPath with
        | none => rfl
        | some q =>
          have := (hag b hb).2.2.2.2.2.2.2.2 (by rw [(hag b hb).2.2.2.2.2.2.2.1, hp]; simp)
          simp only [this]
    obtain ⟨w, hck⟩ := hck
    refine ⟨_, (mkObm_steps _ _ _ _ _ _ _).2 ⟨?_, keys, hkeys, a.bf16, hsh _ (fun b hb => (hag b hb).1),
      fns, shapes, syms, h3, a.mesh, hsh _ (fun b hb => (hag b hb).2.1), a.constraints,
      hsh _ (fun b hb => (hag b hb).2.2.1), cons, hc, a.platforms, hsh _ (fun b hb => (hag b hb).2.2.2.1),
      _, (lowering_ok _ _ _).2 ⟨hi.platforms a ha, rfl⟩, a.xlaFlags, hsh _ (fun b hb => (hag b hb).2.2.2.2.1),
      a.persistXla, hsh _ (fun b hb => (hag b hb).2.2.2.2.2.1), a.saveShlo,
      hsh _ (fun b hb => (hag b hb).2.2.2.2.2.2.1), a.checkpointPath, w, hck, rfl⟩⟩
    cases hz : shape.isNone with
    | false => rfl
    | true =>
      rw [(isNone_iff symbols).2 (hi.needShape ((isNone_iff shape).1 hz))]
      rfl

/-- C125: a module for an Orbax Model has exactly the functions that were given, under
their names, and each function has the shapes, the values of symbols and the
constraints that were given for it. -/
theorem C125_functions (allowed : List String) (params : List Leaf) (fn : FnArg) (shape symbols : Obj)
    (args : TfArgs) (o : OptArg) (x : Module) (hd : Dicts fn o)
    (h : mkModule allowed .obm params fn shape symbols args none (some o) = .ok x) :
    ∃ m, x = .obm m ∧ (∀ k f, (k, f) ∈ m.fns ↔ GivenFn fn k f) ∧
      (∀ k v, (k, v) ∈ m.shapes ↔ GivenArg fn shape k v) ∧
      (∀ k v, (k, v) ∈ m.symbols ↔ GivenArg fn symbols k v) ∧
      (∀ a, SomeOptions o a → ∀ k cs, (k, cs) ∈ m.constraints ↔ GivenConstraints fn a.constraints k cs) := by
  obtain ⟨_, m, h', rfl⟩ := (mkModule_obm _ _ _ _ _ _ _ _ _).1 h
  clear h
  have h := h'
  obtain ⟨h0, keys, h1, bf, h2, fns, shapes, syms, h3, mesh, h4, c, h5, cons, h6, p, h7, plats, h8,
      f, h9, g, h10, shlo, h11, path, weights, h12, rfl⟩ := (mkObm_steps _ _ _ _ _ _ _).1 h
  obtain ⟨n1, n2, n3, n4, n5, n6, n7, n8⟩ := normalize_ok _ _ _ _ _ _ h3
  have s4 := ((shared_ok _ _ _ _).1 h5).2.1
  refine ⟨_, rfl, fun k f => (n4 k f).trans (named_bf fn bf k f), fun k v => (n5 k v).trans (arg_bf _ _ _ _ _),
    fun k v => (n6 k v).trans (arg_bf _ _ _ _ _), ?_⟩
  intro a ha
  have hdc : ∀ m, c = .perFn m → Dict m := by
    intro m hm
    exact hd.constraints a m ha (by rw [s4 a ha]; exact hm)
  obtain ⟨k1, k2⟩ := constraintsFor_ok fns c cons fn
    (fun k f => (n4 k f).trans (named_bf fn bf k f)) (dict_fns fn bf hd.fns _ _ _ _ _ h3) hdc h6
  rw [s4 a ha]
  exact k2

/-- C125: the options in the module are those of every function: the mesh, the platforms
in lower case, where the weights are and under which name, and the StableHLO file. -/
theorem C125_shared (allowed : List String) (params : List Leaf) (fn : FnArg) (shape symbols : Obj)
    (args : TfArgs) (o : OptArg) (m : ObmModule)
    (h : mkModule allowed .obm params fn shape symbols args none (some o) = .ok (.obm m))
    (k : String) (hk : Named fn k) :
    ∃ a, OptionsOf o k a ∧ m.mesh = a.mesh ∧ m.saveShlo = a.saveShlo ∧ m.checkpointPath = a.checkpointPath ∧
      m.platforms = a.platforms.map (fun _ => (PlatformNames a.platforms).map String.toLower) ∧
      (a.checkpointPath = none → m.weightsName = none) ∧
      (a.checkpointPath ≠ none → ∀ n, a.weightsName = some n → n ≠ "" → m.weightsName = some n) ∧
      (a.checkpointPath ≠ none → a.weightsName = none → m.weightsName = some "weights") := by
  obtain ⟨_, m, h, e⟩ := (mkModule_obm _ _ _ _ _ _ _ _ _).1 h
  cases e
  obtain ⟨h0, keys, h1, bf, h2, fns, shapes, syms, h3, mesh, h4, c, h5, cons, h6, p, h7, plats, h8,
      f, h9, g, h10, shlo, h11, path, weights, h12, rfl⟩ := (mkObm_steps _ _ _ _ _ _ _).1 h
  obtain ⟨_, s3, s2⟩ := (shared_ok _ _ _ _).1 h4
  have s5 := ((shared_ok _ _ _ _).1 h7).2.1
  have s8 := ((shared_ok _ _ _ _).1 h11).2.1
  obtain ⟨_, _, c1, c2, c3⟩ := (checkpoint_ok _ _ _ _).1 h12
  have ha : ∃ a, OptionsOf o k a := by
    cases o with
    | one p => exact ⟨p, rfl⟩
    | perFn om => exact s2 om rfl k ((keys_named fn _ keys h1 om rfl k).2 hk)
  obtain ⟨a, ha⟩ := ha
  have hs : SomeOptions o a := ⟨k, ha⟩
  have hw := c3 a hs
  refine ⟨a, ha, (s3 a hs).symm, (s8 a hs).symm, (c1 a hs).symm, ?_, ?_, ?_, ?_⟩
  · have := ((lowering_ok _ _ _).1 h8).2
    rw [s5 a hs]
    exact this
  · intro hn
    rw [c1 a hs] at hn
    subst hn
    exact hw
  · intro hn n h1 h2
    rw [c1 a hs] at hn
    cases path with
    | none => exact absurd rfl hn
    | some q =>
      simp only [h1, Option.map_some, if_neg h2] at hw
      exact hw
  · intro hn h1
    rw [c1 a hs] at hn
    cases path with
    | none => exact absurd rfl hn
    | some q =>
      simp only [h1, Option.map_some] at hw
      exact hw

/-- C125: the parameters are the ones given; with the bfloat16 option, exactly the arrays
and shapes of type float32 have type bfloat16 instead, in the same place. -/
theorem C125_params (allowed : List String) (params : List Leaf) (fn : FnArg) (shape symbols : Obj)
    (args : TfArgs) (o : OptArg) (m : ObmModule) (a : Options) (ha : SomeOptions o a)
    (h : mkModule allowed .obm params fn shape symbols args none (some o) = .ok (.obm m)) :
    m.params.length = params.length ∧
    ∀ (i : Nat) (l l' : Leaf), params[i]? = some l → m.params[i]? = some l' →
      l'.kind = l.kind ∧ l'.value = l.value ∧
      (l'.dtype = if a.bf16 = true ∧ l.dtype = "float32" ∧ (l.kind = .array ∨ l.kind = .struct)
        then "bfloat16" else l.dtype) := by
  obtain ⟨_, m, h, e⟩ := (mkModule_obm _ _ _ _ _ _ _ _ _).1 h
  cases e
  obtain ⟨h0, keys, h1, bf, h2, fns, shapes, syms, h3, mesh, h4, c, h5, cons, h6, p, h7, plats, h8,
      f, h9, g, h10, shlo, h11, path, weights, h12, rfl⟩ := (mkObm_steps _ _ _ _ _ _ _).1 h
  have s1 := ((shared_ok _ _ _ _).1 h2).2.1 a ha
  cases bf with
  | false =>
    refine ⟨rfl, ?_⟩
    intro i l l' e1 e2
    simp only [Bool.false_eq_true, if_false] at e2
    rw [e1] at e2
    cases e2
    simp [s1]
  | true =>
    refine ⟨by simp, ?_⟩
    intro i l l' e1 e2
    simp only [if_true, List.getElem?_map, e1, Option.map_some, Option.some.injEq] at e2
    subst e2
    obtain ⟨kind, dtype, value⟩ := l
    simp only [s1, true_and]
    cases kind <;> simp [bf16Leaf]
    all_goals (split <;> simp)

/-- C125: the two ways to give options are the same: keyword arguments with the fields of
an options object build the same module as the object, if it has no auto layout
and no disabled checks. -/
theorem C125_kwargs (allowed : List String) (params : List Leaf) (fn : FnArg) (shape symbols : Obj)
    (args : TfArgs) (o : Options) (h1 : o.autoLayout = false) (h2 : o.disabledChecks = []) :
    mkModule allowed .obm params fn shape symbols args
        (some [.platforms o.platforms, .checkpointPath o.checkpointPath, .weightsName o.weightsName,
          .constraints o.constraints, .xlaFlags o.xlaFlags, .mesh o.mesh, .persistXla o.persistXla,
          .bf16 o.bf16, .saveShlo o.saveShlo, .loaderType o.loaderType]) none =
      mkModule allowed .obm params fn shape symbols args none (some (.one o)) := by
  obtain ⟨⟩ := o
  simp only at h1 h2
  subst h1 h2
  rfl

/-- C125: with no options the defaults are used. -/
theorem C125_default (allowed : List String) (params : List Leaf) (fn : FnArg) (shape symbols : Obj)
    (args : TfArgs) (kw : Option (List Kw)) (hk : kw = none ∨ kw = some []) :
    mkModule allowed .obm params fn shape symbols args kw none =
      mkModule allowed .obm params fn shape symbols args none (some (.one {})) := by
  rcases hk with rfl | rfl <;> rfl

/-- C125: giving both kinds of options is refused, for either kind of export. -/
theorem C125_both_refused (allowed : List String) (v : Version) (params : List Leaf) (fn : FnArg)
    (shape symbols : Obj) (args : TfArgs) (kw : List Kw) (o : OptArg) :
    mkModule allowed v params fn shape symbols args (some kw) (some o) = .error .value := rfl

/-- C125: the inner module refuses both kinds of options as well. -/
theorem C125_inner_refused (allowed : List String) (params : List Leaf) (fn : FnArg)
    (shape symbols : Obj) (kw : List Kw) (o : OptArg) (hk : kw ≠ []) (m : ObmModule) :
    mkObm allowed params fn shape symbols (some kw) (some o) ≠ .ok m := by
  cases kw with
  | nil => exact absurd rfl hk
  | cons k kw =>
    unfold mkObm
    cases (shape.isNone && !symbols.isNone) <;> (intro h; cases h)

/-- C125: a TF export takes no values for symbols and no function with declared inputs and
outputs; everything else it gets unchanged. -/
theorem C125_tf (allowed : List String) (params : List Leaf) (fn : FnArg) (shape symbols : Obj)
    (args : TfArgs) (kw : Option (List Kw)) (o : Option OptArg) (x : Module) :
    mkModule allowed .tf params fn shape symbols args kw o = .ok x ↔
      (kw = none ∨ o = none) ∧ symbols = .none ∧ (∀ k f, GivenFn fn k f → f.isInfo = false) ∧
      x = .tf params fn shape args := by
  have hi : isInfo fn = false ↔ ∀ k f, GivenFn fn k f → f.isInfo = false := by
    cases fn with
    | one g =>
      simp only [isInfo, GivenFn]
      constructor
      · rintro h k f ⟨_, rfl⟩
        exact h
      · intro h
        exact h _ g ⟨rfl, rfl⟩
    | many m =>
      simp only [isInfo, GivenFn, List.any_eq_false, Bool.not_eq_true]
      exact ⟨fun h k f hf => h _ hf, fun h e he => h e.1 e.2 he⟩
  rw [← hi, ← isNone_iff]
  have hb : (kw = none ∨ o = none) ↔ (kw.isSome && o.isSome) = false := by
    cases kw <;> cases o <;> simp
  rw [hb]
  unfold mkModule
  cases (kw.isSome && o.isSome) <;> cases symbols.isNone <;> cases isInfo fn <;>
    simp [throw, throwThe, MonadExceptOf.throw, bind, Except.bind, pure, Except.pure, eq_comm]

/-- C125 (finding): the StableHLO option cannot be read from any module: the property
raises for a TF export, and for an Orbax Model it reads an attribute that the
inner module does not have. -/
theorem C125_save_shlo_fails (x : Module) (b : Bool) : readSaveShlo x ≠ .ok b := by
  cases x <;> simp [readSaveShlo]

/-- C125 (finding): options that are documented to be the same for all functions may
differ: whatever the loader types of the functions are, the module is built or
refused just as if all had none. (`loader_type` is never compared.) -/
theorem C125_loader_type_fails (allowed : List String) (params : List Leaf) (shape symbols : Obj)
    (args : TfArgs) (fn : FnArg) (om : List (String × Options)) (lt : String → Option Int)
    (hd : Dicts fn (.perFn om)) (h : InOrder allowed fn shape symbols (.perFn om)) :
    ∃ x, mkModule allowed .obm params fn shape symbols args none
      (some (.perFn (om.map fun e => (e.1, { e.2 with loaderType := lt e.1 })))) = .ok x := by
  have hso : ∀ a, SomeOptions (.perFn (om.map fun e => (e.1, { e.2 with loaderType := lt e.1 }))) a →
      ∃ b l, SomeOptions (.perFn om) b ∧ a = { b with loaderType := l } := by
    rintro a ⟨k, hk⟩
    obtain ⟨e, he, heq⟩ := List.mem_map.1 hk
    cases heq
    exact ⟨e.2, lt e.1, ⟨e.1, he⟩, rfl⟩
  refine (C125_accepted _ _ _ _ _ _ _ ⟨hd.fns, ?_⟩).2 ⟨h.fns, h.needShape, h.shapeFits, h.symbolsFit, ?_, ?_, ?_, ?_⟩
  · intro a m ha hc
    obtain ⟨b, l, hb, rfl⟩ := hso a ha
    exact hd.constraints b m hb hc
  · intro m hm
    cases hm
    refine ⟨(h.perFn om rfl).1, ?_⟩
    intro k hk
    obtain ⟨a, ha⟩ := (h.perFn om rfl).2 k hk
    exact ⟨_, List.mem_map.2 ⟨(k, a), ha, rfl⟩⟩
  · intro a b ha hb
    obtain ⟨a', l, ha', rfl⟩ := hso a ha
    obtain ⟨b', l', hb', rfl⟩ := hso b hb
    exact h.agree a' b' ha' hb'
  · intro a ha
    obtain ⟨a', l, ha', rfl⟩ := hso a ha
    exact h.constraints a' ha'
  · intro a ha
    obtain ⟨a', l, ha', rfl⟩ := hso a ha
    exact h.platforms a' ha'

/-- C125 (finding): names of weights may differ between functions if there is no path, and
are then all dropped. -/
theorem C125_weights_name_fails :
    ∃ (fn : FnArg) (a b : Options) (m : ObmModule), a.weightsName ≠ b.weightsName ∧
      mkModule ["tpu"] .obm [] fn .none .none {} none (some (.perFn [("f", a), ("g", b)])) = .ok (.obm m) ∧
      m.weightsName = none :=
  ⟨.many [("f", ⟨0, false⟩), ("g", ⟨1, false⟩)], { weightsName := some "x" }, { weightsName := some "y" },
    _, by decide, rfl, rfl⟩

/-- C125 (finding): an entry of the options for a name that no function has is not
reported; yet it can make the construction fail. -/
theorem C125_extra_options_fails :
    (∃ m, mkModule ["tpu"] .obm [] (.many [("f", ⟨0, false⟩)]) .none .none {} none
      (some (.perFn [("f", {}), ("typo", {})])) = .ok m) ∧
    mkModule ["tpu"] .obm [] (.many [("f", ⟨0, false⟩)]) .none .none {} none
      (some (.perFn [("f", {}), ("typo", { mesh := some 1 })])) = .error .value ∧
    (∃ m, mkModule ["tpu"] .obm [] (.many [("f", ⟨0, false⟩)]) .none .none {} none
      (some (.perFn [("f", {})])) = .ok m) :=
  ⟨⟨_, rfl⟩, rfl, ⟨_, rfl⟩⟩

theorem kwGet_unread {A : Type} (kw : List Kw) (s : String) (pick : Kw → Option A) (d : A)
    (h : pick (.unread s) = none) : kwGet (kw ++ [.unread s]) pick d = kwGet kw pick d := by
  unfold kwGet
  rw [List.findSome?_append]
  simp [h]

/-- C125 (finding): keyword arguments with any other name, misspelled ones and those for
auto layout and disabled checks among them, are ignored without an error. -/
theorem C125_kwargs_ignored_fails (allowed : List String) (params : List Leaf) (fn : FnArg)
    (shape symbols : Obj) (args : TfArgs) (kw : List Kw) (s : String) :
    mkModule allowed .obm params fn shape symbols args (some (kw ++ [.unread s])) none =
      mkModule allowed .obm params fn shape symbols args (some kw) none := by
  have h : chooseOptions (some (kw ++ [.unread s])) none = chooseOptions (some kw) none := by
    cases kw with
    | nil => rfl
    | cons k kw =>
      simp only [chooseOptions, List.cons_append]
      have := fun {A : Type} (pick : Kw → Option A) (d : A) hp => kwGet_unread (k :: kw) s pick d hp
      simp only [List.cons_append] at this
      simp only [fromKwargs]
      rw [this _ _ rfl, this _ _ rfl, this _ _ rfl, this _ _ rfl, this _ _ rfl, this _ _ rfl, this _ _ rfl,
        this _ _ rfl, this _ _ rfl, this _ _ rfl]
  simp only [mkModule, mkObm, h, Option.isSome_some, Option.isSome_none, Bool.and_false]

/-- C125 (finding): options of the other kind of export are ignored without an error. -/
theorem C125_other_export_fails (allowed : List String) (params : List Leaf) (fn : FnArg)
    (shape symbols : Obj) (args args' : TfArgs) (o : Option OptArg) :
    mkModule allowed .obm params fn shape symbols args none o =
      mkModule allowed .obm params fn shape symbols args' none o ∧
    mkModule allowed .tf params fn shape symbols args none o =
      mkModule allowed .tf params fn shape symbols args none none := ⟨rfl, rfl⟩

/-- C125 (finding): a Python float among the parameters stays as it is although the helper
is documented to handle floats. -/
theorem C125_python_float_fails (allowed : List String) (params : List Leaf) (fn : FnArg)
    (shape symbols : Obj) (args : TfArgs) (o : OptArg) (m : ObmModule)
    (h : mkModule allowed .obm params fn shape symbols args none (some o) = .ok (.obm m))
    (i : Nat) (l : Leaf) (hl : params[i]? = some l) (hf : l.kind = .pyFloat) : m.params[i]? = some l := by
  obtain ⟨_, m, h', e⟩ := (mkModule_obm _ _ _ _ _ _ _ _ _).1 h
  cases e
  obtain ⟨h0, keys, h1, bf, h2, fns, shapes, syms, h3, mesh, h4, c, h5, cons, h6, p, h7, plats, h8,
      f, h9, g, h10, shlo, h11, path, weights, h12, rfl⟩ := (mkObm_steps _ _ _ _ _ _ _).1 h'
  cases bf with
  | false => exact hl
  | true =>
    simp only [if_true, List.getElem?_map, hl, Option.map_some, bf16Leaf, hf]

/-- C125: two functions with shapes, values, constraints of their own, options for each
that differ in the layout, and parameters in bfloat16. -/
theorem C125_nonvacuous :
    ∃ (fn : FnArg) (shape symbols : Obj) (o : OptArg) (m : ObmModule),
      Dicts fn o ∧ InOrder ["cpu", "tpu"] fn shape symbols o ∧
      mkModule ["cpu", "tpu"] .obm [⟨.array, "float32", 1⟩, ⟨.array, "int32", 2⟩] fn shape symbols {} none (some o)
        = .ok (.obm m) ∧
      m.params = [⟨.array, "bfloat16", 1⟩, ⟨.array, "int32", 2⟩] ∧ m.platforms = some ["tpu"] ∧
      m.weightsName = some "weights" ∧ Named fn "g" ∧
      (∃ a b, SomeOptions o a ∧ SomeOptions o b ∧ a.autoLayout ≠ b.autoLayout) := by
  let c : Constraints := .perFn [("f", ["b > 1"]), ("g", [])]
  let a : Options := { bf16 := true, constraints := c, platforms := some (.one "tpu"), checkpointPath := some "ckpt" }
  let fn : FnArg := .many [("f", ⟨0, false⟩), ("g", ⟨1, true⟩)]
  let shape : Obj := .map [("g", .leaf 7), ("f", .leaf 8)]
  let symbols : Obj := .map [("f", .leaf 1), ("g", .none)]
  let o : OptArg := .perFn [("f", a), ("g", { a with autoLayout := true })]
  have hd : Dicts fn o := by
    constructor
    · intro m hm
      obtain rfl : _ = m := FnArg.many.inj hm
      unfold Dict
      decide
    · rintro x m ⟨k, hk⟩ hc
      have : x.constraints = c := by
        simp only [o, OptionsOf, List.mem_cons, Prod.mk.injEq, List.not_mem_nil, or_false] at hk
        rcases hk with ⟨_, rfl⟩ | ⟨_, rfl⟩ <;> rfl
      rw [this] at hc
      obtain rfl : _ = m := Constraints.perFn.inj hc
      unfold Dict
      decide
  have hm : ∃ m, mkModule ["cpu", "tpu"] .obm [⟨.array, "float32", 1⟩, ⟨.array, "int32", 2⟩] fn shape symbols {} none
      (some o) = .ok (.obm m) ∧ m.params = [⟨.array, "bfloat16", 1⟩, ⟨.array, "int32", 2⟩] ∧
      m.platforms = some ["tpu"] ∧ m.weightsName = some "weights" := by
    have hb : (match mkModule ["cpu", "tpu"] .obm [⟨.array, "float32", 1⟩, ⟨.array, "int32", 2⟩] fn shape symbols {}
        none (some o) with
      | .ok (.obm m) => decide (m.params = [⟨.array, "bfloat16", 1⟩, ⟨.array, "int32", 2⟩] ∧
          m.platforms = some ["tpu"] ∧ m.weightsName = some "weights")
      | _ => false) = true := by decide +kernel
    split at hb
    · rename_i m hm
      exact ⟨m, hm, of_decide_eq_true hb⟩
    · cases hb
  obtain ⟨m, h1, h2, h3, h4⟩ := hm
  exact ⟨fn, shape, symbols, o, m, hd, (C125_accepted _ _ _ _ _ _ _ hd).1 ⟨_, h1⟩, h1, h2, h3, h4,
    ⟨_, List.mem_cons_of_mem _ List.mem_cons_self⟩,
    a, { a with autoLayout := true }, ⟨"f", List.mem_cons_self⟩,
    ⟨"g", List.mem_cons_of_mem _ List.mem_cons_self⟩, by decide⟩

end Verif.Export.Obm
