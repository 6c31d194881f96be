import Verif.Handlers.ArrayArgs

/-!
# C117: what an array is restored as, given a target and `ArrayRestoreArgs`

`restore w st v a` is the outcome for one stored array `st`, target leaf `v` and arguments
`a` as the user wrote them; `none` is an error.
-/

namespace Verif.Handlers.ArrayArgs

open Verif.Arrays (Nd)
open Verif.Handlers.Standard (World Stored inside convert openAs)

variable {D E P S : Type} [DecidableEq D]

/-- The stored array with its elements converted to `d`, or as stored. -/
def As (w : World D E P S) (st : Stored D E S) (d : Option D) (r : D × Nd E) : Prop :=
  r = (d.getD st.d, ⟨st.a.shape, fun i =>
    match d with
    | none => st.a.at_ i
    | some d => w.cast st.d d (st.a.at_ i)⟩)

theorem openAs_as (w : World D E P S) (st : Stored D E S) (d : Option D) :
    As w st d (openAs w st d) := by
  cases d <;> rfl

/-- C117. Two different shapes in the arguments are refused whatever the target. -/
theorem C117_conflicting_shapes (w : World D E P S) (st : Stored D E S) (v : Item D)
    (a : Args D S) (s g : List Nat) (hs : a.shape = some s) (hg : a.globalShape = some g)
    (hne : s ≠ g) : restore w st v a = none := by
  simp [restore, Args.init, hs, hg, hne]

/-- C117. A shape in the arguments (`shape` or `global_shape`, it does not matter which) is
binding when `strict`: the array comes back exactly if it was stored with that shape, whatever
the target. -/
theorem C117_shape_in_arguments (w : World D E P S) (st : Stored D E S) (v : Item D)
    (a : Args D S) (g : List Nat) (hst : a.strict = true) (hf : w.fits a.sharding g = true)
    (hg : (a.shape = some g ∧ a.globalShape = some g) ∨
      (a.shape = some g ∧ a.globalShape = none) ∨ (a.shape = none ∧ a.globalShape = some g)) :
    (st.a.shape ≠ g → restore w st v a = none) ∧
    (st.a.shape = g → ∃ d r, restore w st v a = some r ∧ As w st d r ∧
      (∀ d', a.dtype = some d' → d = some d')) := by
  have hi : a.init = some { a with shape := some g, globalShape := some g } := by
    rcases a with ⟨sh, gs, s, dt, str⟩
    rcases hg with ⟨h1, h2⟩ | ⟨h1, h2⟩ | ⟨h1, h2⟩ <;> simp only at h1 h2 <;> subst h1 h2 <;>
      simp [Args.init]
  have hu : ∃ d, update v { a with shape := some g, globalShape := some g } =
      some { a with shape := some g, globalShape := some g, dtype := d } ∧
      ∀ d', a.dtype = some d' → d = some d' := by
    rcases v with _ | ⟨shape, dtype⟩ | _ | _
    · exact ⟨a.dtype, rfl, fun _ h => h⟩
    · by_cases ht : truthy shape = true
      · cases hd : a.dtype with
        | none => exact ⟨some dtype, by simp [update, ht, hst, Args.init, hd], fun _ h => by cases h⟩
        | some d => exact ⟨some d, by simp [update, ht, hst, Args.init, hd], fun _ h => h⟩
      · exact ⟨a.dtype, by simp [update, ht], fun _ h => h⟩
    · exact ⟨a.dtype, rfl, fun _ h => h⟩
    · exact ⟨a.dtype, rfl, fun _ h => h⟩
  obtain ⟨d, hu1, hu2⟩ := hu
  simp only [restore, hi, Option.bind_some, hu1]
  constructor
  · intro hne; simp [read, hf, hst, hne]
  · intro he
    exact ⟨d, openAs w st d, by simp [read, hf, hst, he], openAs_as w st d, hu2⟩

/-- C117. A target with at least one axis is binding when `strict` and the arguments leave
shape and element type open: the array comes back exactly if it was stored with the target's
shape, and then with the target's element type. -/
theorem C117_shape_in_target_partial (w : World D E P S) (st : Stored D E S)
    (shape : List Nat) (dtype : D) (a : Args D S) (haxes : shape ≠ [])
    (hst : a.strict = true) (hs : a.shape = none) (hg : a.globalShape = none)
    (hf : w.fits a.sharding shape = true) :
    (st.a.shape ≠ shape → restore w st (.array shape dtype) a = none) ∧
    (st.a.shape = shape → ∃ r, restore w st (.array shape dtype) a = some r ∧
      As w st (some (a.dtype.getD dtype)) r) := by
  rcases a with ⟨sh, gs, s, dt, str⟩
  simp only at hst hs hg hf
  subst hst hs hg
  have ht : truthy shape = true := by cases shape <;> simp_all [truthy]
  constructor
  · intro hne
    simp [restore, Args.init, update, ht, read, hf, hne]
  · intro he
    refine ⟨openAs w st (some (dt.getD dtype)), ?_, openAs_as w st _⟩
    cases dt <;> simp [restore, Args.init, update, ht, read, hf, he]

/-- C117. Without `strict` only the arguments count, not the target: the array comes back with
the shape and element type of the arguments, or as stored, cut and filled up with zeros at the
end of each axis; only another number of axes is refused. -/
theorem C117_not_strict (w : World D E P S) (st : Stored D E S) (v : Item D) (a : Args D S)
    (hst : a.strict = false) (hs : a.shape = none)
    (hf : w.fits a.sharding (a.globalShape.getD st.a.shape) = true) :
    ((a.globalShape.getD st.a.shape).length ≠ st.a.shape.length → restore w st v a = none) ∧
    ((a.globalShape.getD st.a.shape).length = st.a.shape.length → ∃ arr,
      restore w st v a = some (a.dtype.getD st.d, arr) ∧
      arr.shape = a.globalShape.getD st.a.shape ∧
      (∀ i, inside st.a.shape i = true →
        arr.at_ i = (match a.dtype with
          | none => st.a.at_ i
          | some d => w.cast st.d d (st.a.at_ i))) ∧
      (∀ i, inside st.a.shape i = false → arr.at_ i = w.zero (a.dtype.getD st.d))) := by
  rcases a with ⟨sh, gs, s, dt, str⟩
  simp only at hst hs hf
  subst hst hs
  have hu : ∀ b : Args D S, b.strict = false → update v b = some b := by
    intro b hb
    rcases v with _ | ⟨shape, dtype⟩ | _ | _ <;> simp [update, hb]
  have hr : restore w st v ⟨sh, gs, none, dt, false⟩ =
      read w st ⟨sh, gs, gs, dt, false⟩ := by
    simp [restore, Args.init, hu]
  simp only [hr]
  constructor
  · intro hne
    have : ¬ st.a.shape.length = (gs.getD st.a.shape).length := fun h => hne h.symm
    simp [read, hf, this]
  · intro he
    refine ⟨⟨gs.getD st.a.shape, fun i => if inside st.a.shape i then (openAs w st dt).2.at_ i
        else w.zero (openAs w st dt).1⟩, ?_, rfl, fun i hi => ?_, fun i hi => ?_⟩
    · simp only [read, hf, he.symm, Bool.not_true, Bool.false_eq_true, if_false, if_true]
      cases dt <;> rfl
    · simp only [hi, if_true]; cases dt <;> rfl
    · simp only [hi, Bool.false_eq_true, if_false]; cases dt <;> rfl

/-- C117. An element type in the arguments is always the one of the result. -/
theorem C117_dtype_in_arguments (w : World D E P S) (st : Stored D E S) (v : Item D)
    (a : Args D S) (d : D) (hd : a.dtype = some d) (r : D × Nd E)
    (h : restore w st v a = some r) : r.1 = d := by
  have hi : ∀ b, a.init = some b → b.dtype = some d := by
    intro b hb
    unfold Args.init at hb
    split at hb
    · split at hb
      · cases hb; exact hd
      · cases hb
    · cases hb; exact hd
    · cases hb; exact hd
  have hu : ∀ b b' : Args D S, b.dtype = some d → update v b = some b' → b'.dtype = some d := by
    intro b b' hb hb'
    rcases v with _ | ⟨shape, dtype⟩ | _ | _
    · simp only [update, Option.some.injEq] at hb'; subst hb'; exact hb
    · simp only [update] at hb'
      split at hb'
      · split at hb'
        · unfold Args.init at hb'
          split at hb'
          · split at hb'
            · cases hb'; simp [hb]
            · cases hb'
          · cases hb'; simp [hb]
          · cases hb'; simp [hb]
        · cases hb'; exact hb
      · cases hb'; exact hb
    · simp only [update, Option.some.injEq] at hb'; subst hb'; exact hb
    · simp only [update, Option.some.injEq] at hb'; subst hb'; exact hb
  unfold restore at h
  cases hia : a.init with
  | none => simp [hia] at h
  | some b =>
    simp only [hia, Option.bind_some] at h
    cases hub : update v b with
    | none => simp [hub] at h
    | some b' =>
      simp only [hub, Option.bind_some] at h
      have hb' := hu b b' (hi b hia) hub
      simp only [read, hb'] at h
      split at h
      · cases h
      · split at h
        · split at h
          · cases h; rfl
          · cases h
        · split at h
          · cases h; rfl
          · cases h

/-- C117. The arguments that `construct_restore_args` makes for a sharded array give the
target's shape and element type for every number of axes, or an error when the stored shape is
another one. -/
theorem C117_constructed (w : World D E P S) (st : Stored D E S) (s : S) (shape : List Nat)
    (dtype : D) (hf : w.fits s shape = true) (v : Item D) :
    (st.a.shape ≠ shape → restore w st v (constructed s shape dtype true true) = none) ∧
    (st.a.shape = shape → ∃ r, restore w st v (constructed s shape dtype true true) = some r ∧
      As w st (some dtype) r) := by
  have h := C117_shape_in_arguments w st v (constructed s shape dtype true true) shape rfl hf
    (Or.inr (Or.inr ⟨rfl, rfl⟩))
  refine ⟨h.1, fun he => ?_⟩
  obtain ⟨d, r, h1, h2, h3⟩ := h.2 he
  rw [h3 dtype rfl] at h2
  exact ⟨r, h1, h2⟩

/-- C117 (finding). A target without axes is not looked at, although `strict`: its element type
is not used. -/
theorem C117_scalar_dtype_fails (w : World D E P S) (st : Stored D E S) (dtype : D) (s : S)
    (hsh : st.a.shape = []) (hf : w.fits s [] = true) (hne : dtype ≠ st.d) :
    ∃ r, restore w st (.array [] dtype) ⟨s, none, none, none, true⟩ = some r ∧ r.1 ≠ dtype := by
  refine ⟨openAs w st none, ?_, fun h => hne h.symm⟩
  simp [restore, Args.init, update, truthy, read, hsh, hf]

/-- C117 (finding). … and an array stored with any shape comes back with that shape: the
mismatch that is refused for every other target is not noticed. -/
theorem C117_scalar_shape_fails (w : World D E P S) (st : Stored D E S) (dtype : D) (s : S)
    (hf : w.fits s st.a.shape = true) :
    restore w st (.array [] dtype) ⟨s, none, none, none, true⟩ = some (st.d, st.a) := by
  simp [restore, Args.init, update, truthy, read, hf, openAs]

/-- C117 (finding). Without `strict`, a target is not padded or cut to, nor converted to: with
arguments that leave them open the array comes back as stored. -/
theorem C117_target_ignored_fails (w : World D E P S) (st : Stored D E S) (v : Item D) (s : S)
    (hf : w.fits s st.a.shape = true) :
    ∃ r, restore w st v ⟨s, none, none, none, false⟩ = some r ∧ r.1 = st.d ∧
      r.2.shape = st.a.shape := by
  obtain ⟨arr, h1, h2, _⟩ := (C117_not_strict w st v ⟨s, none, none, none, false⟩ rfl rfl hf).2 rfl
  exact ⟨_, h1, rfl, h2⟩

/-- A world for examples: elements are natural numbers, type `d` keeps them modulo `d`. -/
def exWorld : World Nat Nat Unit Unit where
  cast := fun _ d e => e % d
  zero := fun _ => 0
  item := fun _ _ => ()
  ofPy := fun _ => none
  tyOf := fun _ => .int
  conv := fun _ _ => none
  pyOf := fun _ => .int
  f64 := 64
  toF64 := fun _ => none
  recorded := fun _ => true
  available := fun _ => true
  fits := fun _ _ => true

/-- The stored vector 7, 17, 27 of type 100. -/
def exStored : Stored Nat Nat Unit := ⟨.jax, 100, ⟨[3], fun i => 10 * (i.headD 0).toNat + 7⟩, none⟩

theorem C117_nonvacuous :
    ((restore exWorld exStored (.array [3] 10) ⟨(), none, none, none, true⟩).map
      fun r => (r.1, r.2.shape, r.2.at_ [1])) = some (10, [3], 7) ∧
    (restore exWorld exStored (.array [4] 10) ⟨(), none, none, none, true⟩).isNone ∧
    ((restore exWorld exStored (.array [4] 10) ⟨(), some [5], none, none, false⟩).map
      fun r => (r.1, r.2.shape, r.2.at_ [2], r.2.at_ [4])) = some (100, [5], 27, 0) ∧
    ((restore exWorld exStored (.array [] 10) ⟨(), none, none, none, true⟩).map
      fun r => (r.1, r.2.shape, r.2.at_ [2])) = some (100, [3], 27) := by
  decide

end Verif.Handlers.ArrayArgs
