import Verif.Handlers.StandardProps

/-!
# StandardCheckpointHandler: whole trees (C89)

The specification is in `StandardProps`: `EqTree` (equal trees), `Restored` (what a leaf may be restored as, for
each kind of target), `plain`, `asSaved`, `typeOf`, `Lawful`.
-/

namespace Verif.Handlers.Standard

open Verif.Arrays (Nd)

variable {D E P S : Type} [DecidableEq D]

/-- C89: for any checkpoint and any target, a restore that succeeds returns the tree of the target: its keys, which
are those of the checkpoint, and for each leaf what its kind of target asks for. -/
theorem C89_restored (w : World D E P S) (fallback : Option S) (strict : Bool) (ckpt : List (String × Stored D E S)) (target : List (String × Target D S))
    (out : List (String × Leaf D E P S)) (h : restoreTo w fallback strict ckpt target = some out) :
    (∀ k, (∃ x, (k, x) ∈ target) ↔ ∃ st, (k, st) ∈ ckpt) ∧
    List.Forall₂ (fun p q => q.1 = p.1 ∧ ∃ st, (p.1, st) ∈ ckpt ∧ Restored w fallback strict st p.2 q.2) target out := by
  obtain ⟨h1, h2, h3, h4⟩ := restoreTo_iff.mp h
  refine ⟨fun k => ⟨?_, ?_⟩, h4.imp ?_⟩
  · rintro ⟨x, hx⟩
    obtain ⟨st, hst⟩ := Option.isSome_iff_exists.mp (h2 _ hx)
    exact ⟨st, mem_of_lookup hst⟩
  · rintro ⟨st, hst⟩
    obtain ⟨x, hx⟩ := Option.isSome_iff_exists.mp (h3 _ hst)
    exact ⟨x, mem_of_lookup hx⟩
  · rintro p q ⟨h, st, hst, hl⟩
    exact ⟨h, st, mem_of_lookup hst, leafTo_sound hl⟩

/-- The kinds of targets that are allowed. -/
inductive Allowed (w : World D E P S) : Target D S → Prop
  | int : Allowed w (.py .int)
  | float : Allowed w (.py .float)
  | bool : Allowed w (.py .bool)
  | f64 : Allowed w (.npScalar w.f64)
  | np (d : D) (shape : List Nat) : Allowed w (.np d shape)
  | jax (d : D) (shape : List Nat) (s : S) : Allowed w (.jax d shape s)
  | struct (d : D) (shape : List Nat) (s : Option S) : Allowed w (.struct d shape s)

theorem accepted_iff (w : World D E P S) (x : Target D S) : accepted w x = true ↔ Allowed w x := by
  constructor
  · intro h
    cases x with
    | py t => cases t <;> first | exact .int | exact .float | exact .bool | cases h
    | npScalar d => rw [of_decide_eq_true h]; exact .f64
    | np d shape => exact .np d shape
    | jax d shape s => exact .jax d shape s
    | struct d shape s => exact .struct d shape s
    | metadata => cases h
    | other => cases h
  · intro h; cases h <;> first | rfl | exact decide_eq_true rfl

/-- The array that a leaf is. -/
inductive ArrayOf (w : World D E P S) : Leaf D E P S → D → Nd E → Prop
  | py (p : P) (d : D) (e : E) : w.ofPy p = some (d, e) → ArrayOf w (.py p) d ⟨[], fun _ => e⟩
  | npScalar (d : D) (e : E) : ArrayOf w (.npScalar d e) d ⟨[], fun _ => e⟩
  | np (b : Bool) (d : D) (a : Nd E) : ArrayOf w (.np b d a) d a
  | arrayLike (d : D) (a : Nd E) : ArrayOf w (.arrayLike d a) d a
  | jax (d : D) (a : Nd E) (s : S) : ArrayOf w (.jax d a s) d a

/-- C89: a leaf is stored with the type asked for in its save arguments, or its own, and with its elements converted
to that type. -/
theorem C89_stored {w : World D E P S} (hw : Lawful w) (arg : Option (SaveArg D)) (x : Leaf D E P S) (st : Stored D E S) (h : saveLeaf w arg x = some st) :
    ∃ d a, ArrayOf w x d a ∧ st.d = (arg.bind (·.dtype)).getD d ∧ st.a.shape = a.shape ∧ ∀ i, st.a.at_ i = w.cast d st.d (a.at_ i) := by
  have main : ∀ kind d a s, write w kind arg d a s = some st →
      st.d = (arg.bind (·.dtype)).getD d ∧ st.a.shape = a.shape ∧ ∀ i, st.a.at_ i = w.cast d st.d (a.at_ i) := by
    intro kind d a s h
    unfold write at h
    split at h
    · cases h
    · by_cases hd : (arg.bind (·.dtype)).getD d = d
      · simp only [hd, if_true, Option.some.injEq] at h
        subst h
        exact ⟨hd.symm, rfl, fun i => (hw.cast d _).symm⟩
      · simp only [hd, if_false, Option.some.injEq] at h
        subst h
        exact ⟨rfl, rfl, fun i => rfl⟩
  unfold saveLeaf at h
  split at h
  · cases h
  · cases x with
    | py p =>
      cases ho : w.ofPy p with
      | none => cases ht : w.tyOf p <;> simp [ht, ho] at h
      | some r =>
        obtain ⟨d, e⟩ := r
        refine ⟨d, _, .py p d e ho, main .scalar d _ none ?_⟩
        cases ht : w.tyOf p <;> simp [ht, ho] at h <;> exact h
    | npScalar d e => exact ⟨d, _, .npScalar d e, main _ _ _ _ h⟩
    | np b d a => exact ⟨d, a, .np b d a, main _ _ _ _ h⟩
    | arrayLike d a => exact ⟨d, a, .arrayLike d a, main _ _ _ _ h⟩
    | jax d a s => exact ⟨d, a, .jax d a s, main _ _ _ _ h⟩
    | other => cases h

/-- C89: a restore succeeds exactly if the target has the keys of the checkpoint, its leaves are of accepted kinds,
and each of them can be restored. -/
theorem C89_succeeds_iff (w : World D E P S) (fallback : Option S) (strict : Bool) (ckpt : List (String × Stored D E S)) (target : List (String × Target D S))
    (hn : (ckpt.map (·.1)).Nodup) :
    (restoreTo w fallback strict ckpt target).isSome ↔
      (∀ p ∈ target, Allowed w p.2) ∧ (∀ k, (∃ x, (k, x) ∈ target) ↔ ∃ st, (k, st) ∈ ckpt) ∧
      ∀ k x st, (k, x) ∈ target → (k, st) ∈ ckpt → ∃ v, Restored w fallback strict st x v := by
  constructor
  · intro h
    obtain ⟨out, h⟩ := Option.isSome_iff_exists.mp h
    obtain ⟨hk, hl⟩ := C89_restored w fallback strict ckpt target out h
    refine ⟨fun p hp => (accepted_iff w p.2).mp ((restoreTo_iff.mp h).1 p hp), hk, ?_⟩
    intro k x st hx hst
    clear * - hl hn hx hst
    induction hl with
    | nil => cases hx
    | @cons p q t out hd _ ih =>
      rcases List.mem_cons.mp hx with rfl | hx
      · obtain ⟨-, st', hst', hr⟩ := hd
        have := (lookup_of_mem hn hst').symm.trans (lookup_of_mem hn hst)
        cases this
        exact ⟨_, hr⟩
      · exact ih hx
  · rintro ⟨h1, h2, h3⟩
    have hex : ∃ out : List (String × Leaf D E P S), List.Forall₂ (fun p q => q.1 = p.1 ∧ ∃ st, ckpt.lookup p.1 = some st ∧ leafTo w fallback strict st p.2 = some q.2) target out := by
      have hcov : ∀ p ∈ target, ∃ st v, ckpt.lookup p.1 = some st ∧ leafTo w fallback strict st p.2 = some v := by
        rintro ⟨k, x⟩ hp
        obtain ⟨st, hst⟩ := (h2 k).mp ⟨x, hp⟩
        obtain ⟨v, hv⟩ := h3 k x st hp hst
        obtain ⟨v', hv'⟩ := Option.isSome_iff_exists.mp (leafTo_complete hv)
        exact ⟨st, v', lookup_of_mem hn hst, hv'⟩
      clear h1 h2 h3
      induction target with
      | nil => exact ⟨[], .nil⟩
      | cons p t ih =>
        obtain ⟨out, ho⟩ := ih fun q hq => hcov q (by simp [hq])
        obtain ⟨st, v, hst, hv⟩ := hcov p (by simp)
        exact ⟨(p.1, v) :: out, .cons ⟨rfl, st, hst, hv⟩ ho⟩
    obtain ⟨out, ho⟩ := hex
    rw [restoreTo_iff.mpr ⟨fun p hp => (accepted_iff w p.2).mpr (h1 p hp), ?_, ?_, ho⟩]
    · rfl
    · rintro ⟨k, x⟩ hp
      obtain ⟨st, hst⟩ := (h2 k).mp ⟨x, hp⟩
      simp [lookup_of_mem hn hst]
    · rintro ⟨k, st⟩ hp
      obtain ⟨x, hx⟩ := (h2 k).mpr ⟨st, hp⟩
      cases hl : target.lookup k with
      | some _ => rfl
      | none => exact absurd (List.lookup_eq_none_iff.mp hl _ hx) (by simp)

theorem save_iff {w : World D E P S} {args : String → Option (SaveArg D)} {t : List (String × Leaf D E P S)} {ckpt : List (String × Stored D E S)} :
    save w args t = some ckpt ↔ List.Forall₂ (fun p q => q.1 = p.1 ∧ saveLeaf w (args p.1) p.2 = some q.2) t ckpt := by
  unfold save
  rw [mapM_some_iff]
  have : (fun (a : String × Leaf D E P S) (b : String × Stored D E S) => Option.map (fun y => (a.1, y)) (saveLeaf w (args a.1) a.2) = some b) =
      (fun p q => q.1 = p.1 ∧ saveLeaf w (args p.1) p.2 = some q.2) := by
    funext p q
    obtain ⟨k, v⟩ := q
    simp only [Option.map_eq_some_iff, Prod.mk.injEq, eq_iff_iff]
    constructor
    · rintro ⟨a, ha, rfl, rfl⟩; exact ⟨rfl, ha⟩
    · rintro ⟨rfl, ha⟩; exact ⟨v, ha, rfl, rfl⟩
  rw [← this]

/-- C89: a tree that was saved without conversion, restored with itself as the target, comes back equal: the same
keys in the same order, and leaves of the same types, shapes, shardings and values. -/
theorem C89_same_target {w : World D E P S} (hw : Lawful w) (fallback : Option S) (strict : Bool) (args : String → Option (SaveArg D))
    (hargs : ∀ k a, args k = some a → a.dtype = none) (t : List (String × Leaf D E P S)) (hn : (t.map (·.1)).Nodup)
    (ckpt : List (String × Stored D E S)) (hsave : save w args t = some ckpt) (hacc' : ∀ p ∈ t, Allowed w (typeOf w p.2))
    (hfit : ∀ k d a s, (k, Leaf.jax d a s) ∈ t → w.fits s a.shape = true) :
    ∃ out, restoreTo w fallback strict ckpt (t.map fun p => (p.1, typeOf w p.2)) = some out ∧ EqTree (t.map fun p => (p.1, plain p.2)) out := by
  have hacc : ∀ p ∈ t, accepted w (typeOf w p.2) = true := fun p hp => (accepted_iff w _).mpr (hacc' p hp)
  have hf := save_iff.mp hsave
  have hkeys : ckpt.map (·.1) = t.map (·.1) := by
    clear hsave hacc hacc' hfit hn
    induction hf with
    | nil => rfl
    | cons h _ ih => simp [ih, h.1]
  have hn' : (ckpt.map (·.1)).Nodup := by rw [hkeys]; exact hn
  have key : ∀ (t' : List (String × Leaf D E P S)) (c' : List (String × Stored D E S)),
      List.Forall₂ (fun p q => q.1 = p.1 ∧ saveLeaf w (args p.1) p.2 = some q.2) t' c' → (∀ p ∈ t', p ∈ t) → (∀ q ∈ c', q ∈ ckpt) →
      ∃ out, List.Forall₂ (fun p q => q.1 = p.1 ∧ ∃ st, ckpt.lookup p.1 = some st ∧ leafTo w fallback strict st p.2 = some q.2)
        (t'.map fun p => (p.1, typeOf w p.2)) out ∧ EqTree (t'.map fun p => (p.1, plain p.2)) out := by
    intro t' c' h
    induction h with
    | nil => intro _ _; exact ⟨[], .nil, .nil⟩
    | @cons p q t' c' hd _ ih =>
      intro ht hc
      obtain ⟨out, h1, h2⟩ := ih (fun p hp => ht p (by simp [hp])) (fun q hq => hc q (by simp [hq]))
      obtain ⟨k, x⟩ := p
      obtain ⟨k', st⟩ := q
      obtain ⟨rfl, hs⟩ := hd
      obtain ⟨s, a, v, e1, e2, e3, e4⟩ := readLeaf_own hw (hargs k') hs fallback strict (hacc _ (ht _ (by simp)))
        (fun d a s e => hfit k' d a s (by rw [← e]; exact ht _ (by simp)))
      refine ⟨(k', v) :: out, .cons ⟨rfl, st, lookup_of_mem hn' (hc _ (by simp)), ?_⟩ h1, .cons ⟨rfl, e4⟩ h2⟩
      simp [leafTo, e1, e2, e3]
  obtain ⟨out, h1, h2⟩ := key t ckpt hf (fun _ h => h) (fun _ h => h)
  refine ⟨out, restoreTo_iff.mpr ⟨?_, ?_, ?_, h1⟩, h2⟩
  · rintro _ hp
    obtain ⟨p, hp', rfl⟩ := List.mem_map.mp hp
    exact hacc p hp'
  · rintro _ hp
    obtain ⟨p, hp', rfl⟩ := List.mem_map.mp hp
    have : p.1 ∈ ckpt.map (·.1) := by rw [hkeys]; exact List.mem_map.mpr ⟨p, hp', rfl⟩
    obtain ⟨⟨k, st⟩, hq, e⟩ := List.mem_map.mp this
    simp only at e
    subst e
    simp only [lookup_of_mem hn' hq, Option.isSome_some]
  · rintro ⟨k, st⟩ hp
    have : k ∈ t.map (·.1) := by rw [← hkeys]; exact List.mem_map.mpr ⟨(k, st), hp, rfl⟩
    obtain ⟨⟨k', x⟩, hq, e⟩ := List.mem_map.mp this
    simp only at e
    subst e
    have : ((t.map fun p => (p.1, typeOf w p.2)).map (·.1)).Nodup := by simpa [Function.comp_def] using hn
    simp only [lookup_of_mem this (List.mem_map.mpr ⟨(k', x), hq, rfl⟩), Option.isSome_some]

/-- A saved leaf, restored without a target. -/
theorem readLeaf_meta {w : World D E P S} (hw : Lawful w) {arg : Option (SaveArg D)} (h : ∀ a, arg = some a → a.dtype = none) {x : Leaf D E P S}
    {st : Stored D E S} (hs : saveLeaf w arg x = some st) (fallback : Option S) (strict : Bool) :
    (asSaved w fallback x = none → metaSharding w fallback st = none) ∧
    ∀ y, asSaved w fallback x = some y → (∀ d a s, y = .jax d a s → w.fits s a.shape = true) →
      ∃ s v, metaSharding w fallback st = some s ∧ readLeaf w st (setStrict strict (metaArg w s st)) = some v ∧ EqLeaf y v := by
  rcases saveLeaf_some h hs with ⟨p, d, e, rfl, hc, hp, rfl⟩ | ⟨d, e, rfl, rfl⟩ | ⟨b, d, a, rfl, rfl⟩ | ⟨d, a, rfl, rfl⟩ | ⟨d, a, s, rfl, rfl⟩
  · refine ⟨fun h => (nomatch h), ?_⟩
    rintro y hy -
    cases hy
    exact ⟨none, .py p, rfl, by simp [metaArg, setStrict, readLeaf, openAs, convert, hw.cast, hw.item p d e hp, hw.pyOf p d e hp, hw.conv], rfl⟩
  · refine ⟨fun h => (nomatch h), ?_⟩
    rintro y hy -
    cases hy
    exact ⟨none, _, rfl, by simp only [metaArg, setStrict, readLeaf, openAs, convert_self hw], EqLeaf.refl _⟩
  · refine ⟨fun h => (nomatch h), ?_⟩
    rintro y hy -
    cases hy
    exact ⟨none, _, rfl, by simp only [metaArg, setStrict, readLeaf, openAs, convert_self hw], EqLeaf.refl _⟩
  · refine ⟨fun h => (nomatch h), ?_⟩
    rintro y hy -
    cases hy
    exact ⟨none, _, rfl, by simp only [metaArg, setStrict, readLeaf, openAs, convert_self hw], EqLeaf.refl _⟩
  · cases hr : w.recorded s with
    | false =>
      simp only [asSaved, hr, if_true]
      refine ⟨fun h => (nomatch h), ?_⟩
      rintro y hy -
      cases hy
      exact ⟨none, _, rfl, by simp only [metaArg, setStrict, readLeaf, openAs, convert_self hw], EqLeaf.refl _⟩
    | true =>
      have main : ∀ f : S, w.fits f a.shape = true →
          ∃ v, readLeaf w ⟨.jax, d, a, some s⟩ (setStrict strict (metaArg w (some f) ⟨.jax, d, a, some s⟩)) = some v ∧ EqLeaf (.jax d a f : Leaf D E P S) v := by
        intro f hf
        cases strict with
        | true => exact ⟨.jax d a f, by simp [setStrict, metaArg, readLeaf, hf, convert_self hw], EqLeaf.refl _⟩
        | false =>
          refine ⟨.jax d ⟨a.shape, fun i => if inside a.shape i then w.cast d d (a.at_ i) else w.zero d⟩ f,
            by simp [setStrict, metaArg, readLeaf, hf], ⟨_, rfl, rfl, ?_⟩⟩
          intro i hi
          simp [(inside_iff _ _).mpr hi, hw.cast]
      cases hav : w.available s with
      | true =>
        simp only [asSaved, hr, hav, metaSharding, if_true, Bool.true_eq_false, if_false]
        refine ⟨fun h => (nomatch h), ?_⟩
        rintro y hy hf
        cases hy
        obtain ⟨v, h1, h2⟩ := main s (hf d a s rfl)
        exact ⟨some s, v, rfl, h1, h2⟩
      | false =>
        simp only [asSaved, hr, hav, metaSharding, if_true, Bool.true_eq_false, Bool.false_eq_true, if_false]
        cases fallback with
        | none => exact ⟨fun _ => rfl, fun y hy => (nomatch hy)⟩
        | some f =>
          refine ⟨fun h => (nomatch h), ?_⟩
          rintro y hy hf
          cases hy
          obtain ⟨v, h1, h2⟩ := main f (hf d a f rfl)
          exact ⟨some f, v, rfl, h1, h2⟩

/-- C89: a tree that was saved without conversion, restored without a target, comes back as `asSaved` says. -/
theorem C89_no_target {w : World D E P S} (hw : Lawful w) (fallback : Option S) (strict : Bool) (args : String → Option (SaveArg D))
    (hargs : ∀ k a, args k = some a → a.dtype = none) (t t' : List (String × Leaf D E P S))
    (ckpt : List (String × Stored D E S)) (hsave : save w args t = some ckpt)
    (ht : List.Forall₂ (fun p q => q.1 = p.1 ∧ asSaved w fallback p.2 = some q.2) t t')
    (hfit : ∀ k d a s, (k, Leaf.jax d a s) ∈ t' → w.fits s a.shape = true) :
    ∃ out, restoreAll w fallback strict ckpt = some out ∧ EqTree t' out := by
  have hf := save_iff.mp hsave
  unfold restoreAll
  simp only [mapM_some_iff]
  clear hsave
  induction hf generalizing t' with
  | nil => cases ht; exact ⟨[], .nil, .nil⟩
  | @cons p q t c hd _ ih =>
    rcases ht with _ | ⟨hq, ht⟩
    rename_i q' t'
    obtain ⟨out, h1, h2⟩ := ih t' ht (fun k d a s h => hfit k d a s (by simp [h]))
    obtain ⟨k, x⟩ := p
    obtain ⟨k', st⟩ := q
    obtain ⟨k'', y⟩ := q'
    obtain ⟨rfl, hs⟩ := hd
    obtain ⟨rfl, hy⟩ := hq
    obtain ⟨s, v, e1, e2, e3⟩ := (readLeaf_meta hw (hargs _) hs fallback strict).2 y hy (fun d a s e => hfit _ d a s (by rw [← e]; exact List.mem_cons_self))
    refine ⟨(_, v) :: out, .cons ?_ h1, .cons ⟨rfl, e3⟩ h2⟩
    simp [e1, e2]

/-- C89: without a target, if the devices of some array no longer exist and there is no fallback sharding, nothing is
restored. -/
theorem C89_no_devices {w : World D E P S} (hw : Lawful w) (strict : Bool) (args : String → Option (SaveArg D))
    (hargs : ∀ k a, args k = some a → a.dtype = none) (t : List (String × Leaf D E P S))
    (ckpt : List (String × Stored D E S)) (hsave : save w args t = some ckpt) (k : String) (d : D) (a : Nd E) (s : S) (hm : (k, Leaf.jax d a s) ∈ t)
    (hr : w.recorded s = true) (ha : w.available s = false) : restoreAll w none strict ckpt = none := by
  have hf := save_iff.mp hsave
  cases h : restoreAll w none strict ckpt with
  | none => rfl
  | some out =>
    exfalso
    unfold restoreAll at h
    rw [mapM_some_iff] at h
    clear hsave
    induction hf generalizing out with
    | nil => cases hm
    | @cons p q t c hd _ ih =>
      rcases h with _ | ⟨hq, h⟩
      rcases List.mem_cons.mp hm with e | hm
      · subst e
        obtain ⟨k', st⟩ := q
        obtain ⟨rfl, hs⟩ := hd
        have := (readLeaf_meta hw (hargs _) hs none strict).1 (by simp [asSaved, hr, ha])
        simp [this] at hq
      · exact ih hm _ h

/-- C89: the value of a whole number saved and asked for as a `float`, or the reverse, is what Python's conversion
gives; an error if it raises. -/
theorem C89_number_conversion (w : World D E P S) (fallback : Option S) (strict : Bool) (st : Stored D E S) (t : PyT) (ht : t ≠ .complex) (k : String) :
    restoreTo w fallback strict [(k, st)] [(k, .py t)] =
      if st.a.shape = [] then (w.conv t (w.item st.d (st.a.at_ []))).map (fun p => [(k, .py p)]) else none := by
  have hacc : accepted w (.py t : Target D S) = true := by cases t <;> simp_all [accepted]
  simp only [restoreTo, List.all_cons, List.all_nil, hacc, List.lookup_cons, beq_self_eq_true, Bool.and_true, Bool.not_true, Bool.false_eq_true, if_false,
    List.mapM_cons, List.mapM_nil, targetSharding, Option.bind_some, restoreArg, Option.map_some, Option.isSome_some, setStrict, readLeaf, openAs,
    Option.pure_def, Option.bind_eq_bind]
  split
  · cases w.conv t (w.item st.d (st.a.at_ [])) <;> simp
  · rfl

/-- C89 (finding): the shape of an `np.ndarray` in the target, or of a `jax.ShapeDtypeStruct` without sharding for an
array saved from NumPy, is not used, in strict mode either: an array of another shape is restored. -/
theorem C89_shape_fails (w : World D E P S) (fallback : Option S) (k : String) (d d' : D) (a : Nd E) (shape : List Nat) (hshape : shape ≠ a.shape)
    (target : Target D S) (ht : target = .np d' shape ∨ target = .struct d' shape none) :
    ∃ a', restoreTo w fallback true [(k, ⟨.np, d, a, none⟩)] [(k, target)] = some [(k, .np false d' a')] ∧ a'.shape ≠ shape := by
  rcases ht with rfl | rfl <;>
  · refine ⟨convert w d d' a, ?_, fun h => hshape h.symm⟩
    simp [restoreTo, accepted, targetSharding, metaSharding, restoreArg, setStrict, readLeaf, openAs]

/-- C89 (finding): a `jax.ShapeDtypeStruct` without sharding is restored as a `jax.Array`, with the sharding that was
saved, though the documentation promises an `np.ndarray`. -/
theorem C89_struct_fails {w : World D E P S} (hw : Lawful w) (fallback : Option S) (k : String) (d : D) (a : Nd E) (s : S) (ha : w.available s = true)
    (hf : w.fits s a.shape = true) :
    restoreTo w fallback true [(k, ⟨.jax, d, a, some s⟩)] [(k, .struct d a.shape none)] = some [(k, .jax d a s)] := by
  simp [restoreTo, accepted, targetSharding, metaSharding, restoreArg, setStrict, readLeaf, ha, hf, convert_self hw]

/-- C89 (finding): metadata of the checkpoint is refused as a target, though the documentation allows it. -/
theorem C89_metadata_fails (w : World D E P S) (fallback : Option S) (strict : Bool) (ckpt : List (String × Stored D E S)) (target : List (String × Target D S))
    (k : String) (h : (k, .metadata) ∈ target) : restoreTo w fallback strict ckpt target = none := by
  cases hr : restoreTo w fallback strict ckpt target with
  | none => rfl
  | some out => cases (restoreTo_iff.mp hr).1 _ h

/-- C89 (finding): a tree with a NumPy scalar other than `np.float64` is saved, but cannot be its own target. -/
theorem C89_scalar_fails (w : World D E P S) (fallback : Option S) (strict : Bool) (k : String) (d : D) (e : E) (hd : d ≠ w.f64) :
    ∃ ckpt, save w (fun _ => none) [(k, .npScalar d e)] = some ckpt ∧
      restoreTo w fallback strict ckpt [(k, typeOf w (.npScalar d e : Leaf D E P S))] = none := by
  refine ⟨[(k, ⟨.np, d, ⟨[], fun _ => e⟩, none⟩)], by simp [save, saveLeaf, write], ?_⟩
  simp [restoreTo, typeOf, accepted, hd]

end Verif.Handlers.Standard
