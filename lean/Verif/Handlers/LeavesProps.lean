import Verif.Handlers.Leaves
import Verif.Handlers.StandardExamples

/-!
# V1 leaves: stored with their own options, loaded as asked (C108)

Specification.  `First xs x`: the first value given in a list of optional ones.  `Source d a st`: the stored leaf
holds an array.  `Asked x v`: a loaded leaf is of the Python type, element type, shape and sharding that the
abstract leaf names.  `Laws`: facts about Python and NumPy.  `Same v v'`: equal leaves, arrays compared at the
positions of their shape.
-/

namespace Verif.Handlers.Leaves

open Verif.Arrays (Nd)
open Verif.Handlers.Standard (World PyT convert inside Lawful Pos inside_iff)

variable {D E P S K : Type} [DecidableEq D]

/-- The first value given. -/
inductive First {α : Type} : List (Option α) → Option α → Prop
  | nil : First [] none
  | here (x : α) (xs) : First (some x :: xs) (some x)
  | skip (xs r) : First xs r → First (none :: xs) r

/-- What is true of Python and NumPy, beyond `Lawful`. -/
structure Laws (w : World D E P S) (isInt isFloat : D → Bool) : Prop where
  base : Lawful w
  conv : ∀ t p q, w.conv t p = some q → w.tyOf q = t
  int : ∀ d e, isInt d = true → w.tyOf (w.item d e) = .int
  float : ∀ d e, isInt d = false → isFloat d = true → w.tyOf (w.item d e) = .float

/-- A loaded leaf is what the abstract leaf names. -/
def Asked (w : World D E P S) : Abs D S → Leaf D E P S → Prop
  | .pyVal t, v => ∃ p, v = .py p ∧ w.tyOf p = t
  | .pyType t, v => ∃ p, v = .py p ∧ w.tyOf p = t
  | .npScalarVal d, v => ∃ e, v = .npScalar d e
  | .npScalarType d, v => ∃ e, v = .npScalar d e
  | .shaped dt g, v => ∃ d a, v = .np d a ∧ (∀ d', dt = some d' → d = d') ∧ (∀ g', g = some g' → a.shape = g')
  | .npType, v => ∃ d a, v = .np d a
  | .sharded dt g s, v => ∃ d a s', v = .jax d a s' ∧ (∀ d', dt = some d' → d = d') ∧ (∀ g', g = some g' → a.shape = g') ∧
      (∀ s₀, s = some s₀ → s' = s₀)
  | .jaxType, v => ∃ d a s, v = .jax d a s
  | .strVal _, v => ∃ t, v = .str t
  | .strType, v => ∃ t, v = .str t
  | .other, _ => False

/-- Equal leaves; arrays are compared at their positions. -/
inductive Same : Leaf D E P S → Leaf D E P S → Prop
  | refl (v) : Same v v
  | jax (d a b s) : a.shape = b.shape → (∀ i, Pos a.shape i → a.at_ i = b.at_ i) → Same (.jax d a s) (.jax d b s)

/-! ### Options -/

/-- C108: each storage option of a leaf is the one given for the leaf, else the one given for all leaves, else not
set (no axes). -/
theorem C108_options (L : Type) (o : Saving K L D) (k : K) (v : L) (own : Opts D)
    (hown : own = ((o.creator.bind fun f => f k v).getD ⟨none, none, none⟩)) (all : Opts D) (hall : all = o.storage.getD ⟨none, none, none⟩) :
    First [own.dtype, all.dtype] (resolve o k v).dtype ∧ First [own.chunk, all.chunk] (resolve o k v).chunk ∧
      First [own.axes, all.axes, some []] (some (resolve o k v).axes) := by
  subst hown hall
  obtain ⟨st, cr, f⟩ := o
  have fin : ∀ {α : Type} (x y : Option α), First [x, y] (if x.isSome then x else y) := by
    intro α x y
    cases x with
    | some x => exact .here _ _
    | none => cases y with
      | some y => exact .skip _ _ (.here _ _)
      | none => exact .skip _ _ (.skip _ _ .nil)
  have fin2 : ∀ {α : Type} (y : Option α), First [none, y] y := by
    intro α y; cases y with
    | some y => exact .skip _ _ (.here _ _)
    | none => exact .skip _ _ (.skip _ _ .nil)
  have ax : ∀ (x y : Option (List Nat)), First [x, y, some []] (some ((if x.isSome then x else y).getD [])) := by
    intro x y
    cases x with
    | some x => exact .here _ _
    | none => cases y with
      | some y => exact .skip _ _ (.here _ _)
      | none => exact .skip _ _ (.skip _ _ (.here _ _))
  cases cr with
  | none =>
    cases st with
    | none => exact ⟨fin2 _, fin2 _, ax none none⟩
    | some g => exact ⟨fin2 _, fin2 _, ax none g.axes⟩
  | some c =>
    simp only [resolve, Option.bind_some]
    cases hc : c k v with
    | none =>
      cases st with
      | none => exact ⟨fin2 _, fin2 _, ax none none⟩
      | some g => exact ⟨fin2 _, fin2 _, ax none g.axes⟩
    | some i =>
      cases st with
      | none => exact ⟨fin i.dtype none, fin i.chunk none, ax i.axes none⟩
      | some g => exact ⟨fin i.dtype g.dtype, fin i.chunk g.chunk, ax i.axes g.axes⟩

/-! ### Saving -/

/-- C108: what is stored for a leaf: its elements converted to the storage type resolved for it, with its sharding if
shardings are recorded. -/
theorem C108_stored (w : World D E P S) (o : Saving K (Leaf D E P S) D) (k : K) (x : Leaf D E P S) (st : Stored D E S)
    (h : saveLeaf w o k x = some st) :
    (∃ t, x = .str t ∧ st = .text t) ∨
    ∃ kind d a d' b sh, st = .num kind d' b sh ∧ (∀ q, (resolve o k x).dtype = some q → d' = q) ∧
      ((resolve o k x).dtype = none → d' = d) ∧ b.shape = a.shape ∧ 0 ∉ a.shape ∧
      (d' = d → b = a) ∧ (d' ≠ d → ∀ i, b.at_ i = w.cast d d' (a.at_ i)) ∧
      ((x = .np d a ∧ kind = .np ∧ sh = none) ∨
       (∃ s, x = .jax d a s ∧ kind = .jax ∧ (sh = some s ∨ sh = none) ∧ (sh = some s ↔ o.shardingFile = true ∧ w.recorded s = true)) ∨
       (∃ e, x = .npScalar d e ∧ a = ⟨[], fun _ => e⟩ ∧ kind = .scalar ∧ sh = none) ∨
       (∃ p e, x = .py p ∧ w.ofPy p = some (d, e) ∧ a = ⟨[], fun _ => e⟩ ∧ kind = .scalar ∧ sh = none)) := by
  have wr : ∀ kind d (a : Nd E) sh, write w kind (resolve o k x).dtype d a sh = some st →
      ∃ d' b, st = .num kind d' b sh ∧ (∀ q, (resolve o k x).dtype = some q → d' = q) ∧
      ((resolve o k x).dtype = none → d' = d) ∧ b.shape = a.shape ∧ 0 ∉ a.shape ∧ (d' = d → b = a) ∧ (d' ≠ d → ∀ i, b.at_ i = w.cast d d' (a.at_ i)) := by
    intro kind d a sh hw
    simp only [write] at hw
    split at hw
    · cases hw
    rename_i hz
    injection hw with hw
    refine ⟨(resolve o k x).dtype.getD d, _, hw.symm, ?_, ?_, ?_, ?_, ?_, ?_⟩
    · intro q hq; rw [hq]; rfl
    · intro hq; rw [hq]; rfl
    · split <;> rfl
    · intro hm; exact hz (List.any_eq_true.mpr ⟨0, hm, rfl⟩)
    · intro hq; rw [if_pos hq]
    · intro hq i; rw [if_neg hq]; rfl
  cases x with
  | str t => simp only [saveLeaf, Option.some.injEq] at h; exact Or.inl ⟨t, rfl, h.symm⟩
  | other => simp [saveLeaf] at h
  | np d a =>
    obtain ⟨d', b, h1, h2, h3, h4, h5, h6, h7⟩ := wr _ _ _ _ h
    exact Or.inr ⟨_, d, a, d', b, _, h1, h2, h3, h4, h5, h6, h7, Or.inl ⟨rfl, rfl, rfl⟩⟩
  | jax d a s =>
    obtain ⟨d', b, h1, h2, h3, h4, h5, h6, h7⟩ := wr _ _ _ _ h
    refine Or.inr ⟨_, d, a, d', b, _, h1, h2, h3, h4, h5, h6, h7, Or.inr (Or.inl ⟨s, rfl, rfl, ?_, ?_⟩)⟩
    · split
      · exact Or.inl rfl
      · exact Or.inr rfl
    · constructor
      · intro hs; split at hs
        · rename_i hc; simpa using hc
        · cases hs
      · intro ⟨ha, hb⟩; simp [ha, hb]
  | npScalar d e =>
    simp only [saveLeaf] at h
    split at h
    · obtain ⟨d', b, h1, h2, h3, h4, h5, h6, h7⟩ := wr _ _ _ _ h
      exact Or.inr ⟨_, d, _, d', b, _, h1, h2, h3, h4, h5, h6, h7, Or.inr (Or.inr (Or.inl ⟨e, rfl, rfl, rfl, rfl⟩))⟩
    · cases h
  | py p =>
    simp only [saveLeaf] at h
    split at h
    · cases h
    cases hp : w.ofPy p with
    | none => simp [hp] at h
    | some r =>
      obtain ⟨d, e⟩ := r
      simp only [hp] at h
      obtain ⟨d', b, h1, h2, h3, h4, h5, h6, h7⟩ := wr _ _ _ _ h
      exact Or.inr ⟨_, d, _, d', b, _, h1, h2, h3, h4, h5, h6, h7, Or.inr (Or.inr (Or.inr ⟨p, e, rfl, hp, rfl, rfl, rfl⟩))⟩

/-- C108: a leaf can be saved exactly if it is a string, an array without an empty axis, a Python number that NumPy
can represent and that is not complex, or an `np.float64`. -/
theorem C108_saved_iff (w : World D E P S) (o : Saving K (Leaf D E P S) D) (k : K) (x : Leaf D E P S) :
    (saveLeaf w o k x).isSome = true ↔
      (∃ t, x = .str t) ∨ (∃ d a, x = .np d a ∧ 0 ∉ a.shape) ∨ (∃ d a s, x = .jax d a s ∧ 0 ∉ a.shape) ∨
      (∃ e, x = .npScalar w.f64 e) ∨ (∃ p, x = .py p ∧ w.tyOf p ≠ .complex ∧ (w.ofPy p).isSome = true) := by
  have wr : ∀ kind dt d (a : Nd E) sh, (write w kind dt d a sh).isSome = true ↔ 0 ∉ a.shape := by
    intro kind dt d a sh
    simp only [write]
    by_cases hz : 0 ∈ a.shape
    · rw [if_pos (List.any_eq_true.mpr ⟨0, hz, rfl⟩)]; simp [hz]
    · rw [if_neg (fun h => by obtain ⟨n, hn, h0⟩ := List.any_eq_true.mp h; simp at h0; exact hz (h0 ▸ hn))]; simp [hz]
  cases x with
  | str t => simp [saveLeaf]
  | other => simp [saveLeaf]
  | np d a => simp [saveLeaf, wr]
  | jax d a s => simp [saveLeaf, wr]
  | npScalar d e =>
    simp only [saveLeaf]
    by_cases h : d = w.f64
    · simp [h, wr]
    · simp [h]
  | py p =>
    simp only [saveLeaf]
    by_cases h : w.tyOf p = .complex
    · simp [h]
    · cases hp : w.ofPy p with
      | none => simp [h, hp]
      | some r => simp [h, hp, wr]

/-- C108: nothing is written unless every leaf has a handler, and then the leaves are saved one by one. -/
theorem C108_tree (w : World D E P S) (o : Saving K (Leaf D E P S) D) (t : List (K × Leaf D E P S)) (ckpt : List (K × Stored D E S)) :
    saveTree w o t = some ckpt ↔ (t.map (·.1) = ckpt.map (·.1) ∧ List.Forall₂ (fun p q => saveLeaf w o p.1 p.2 = some q.2) t ckpt) := by
  have key : ∀ (t : List (K × Leaf D E P S)) (ckpt : List (K × Stored D E S)),
      (t.mapM fun p => (saveLeaf w o p.1 p.2).map fun y => (p.1, y)) = some ckpt ↔
      (t.map (·.1) = ckpt.map (·.1) ∧ List.Forall₂ (fun p q => saveLeaf w o p.1 p.2 = some q.2) t ckpt) := by
    intro t
    induction t with
    | nil => intro ckpt; cases ckpt <;> simp
    | cons x xs ih =>
      intro ckpt
      rw [List.mapM_cons]
      cases hx : saveLeaf w o x.1 x.2 with
      | none =>
        constructor
        · intro h; simp at h
        · intro ⟨_, h⟩
          cases h with
          | cons h1 _ => rw [hx] at h1; cases h1
      | some y =>
        cases hxs : xs.mapM (fun p => (saveLeaf w o p.1 p.2).map fun y => (p.1, y)) with
        | none =>
          constructor
          · intro h; simp at h
          · intro ⟨h1, h2⟩
            cases h2 with
            | cons hh ht =>
              have := (ih _).mpr ⟨by simpa using (List.cons.inj h1).2, ht⟩
              rw [hxs] at this; cases this
        | some ys =>
          constructor
          · intro h
            simp at h
            subst h
            obtain ⟨h1, h2⟩ := (ih ys).mp hxs
            exact ⟨by simp [h1], .cons hx h2⟩
          · intro ⟨h1, h2⟩
            cases h2 with
            | @cons _ q _ qs hh ht =>
              have hys := (ih qs).mpr ⟨by simpa using (List.cons.inj h1).2, ht⟩
              rw [hxs] at hys
              cases hys
              rw [hx] at hh
              cases hh
              have : x.1 = q.1 := (List.cons.inj h1).1
              simp [this]
  have hall : ∀ (t : List (K × Leaf D E P S)) (ckpt : List (K × Stored D E S)),
      List.Forall₂ (fun p q => saveLeaf w o p.1 p.2 = some q.2) t ckpt → t.all (fun p => handleable w p.2) = true := by
    intro t ckpt h
    induction h with
    | nil => rfl
    | @cons x q xs qs hx _ ih =>
      rw [List.all_cons, ih, Bool.and_true]
      obtain ⟨k, x⟩ := x
      cases x with
      | other => simp [saveLeaf] at hx
      | npScalar d e =>
        simp only [saveLeaf] at hx
        split at hx
        · rename_i hd; simp [handleable, kindOf, hd]
        · cases hx
      | py p =>
        simp only [saveLeaf] at hx
        split at hx
        · cases hx
        · rename_i hd; simp [handleable, kindOf, hd]
      | _ => rfl
  constructor
  · intro h
    simp only [saveTree] at h
    split at h
    · exact (key _ _).mp h
    · cases h
  · intro h
    simp only [saveTree]
    rw [if_pos (hall _ _ h.2)]
    exact (key _ _).mpr h

/-! ### Loading -/

/-- C108: asked for a Python number (a value or the type), a stored array is read exactly if it has no axes and
Python converts the number, and the result is the converted number. -/
theorem C108_number_iff (w : World D E P S) (repr : P → List Char) (pad : Bool) (x : Abs D S) (t : PyT) (ht : t ≠ .complex)
    (hx : x = .pyVal t ∨ x = .pyType t) (kind : Kind) (d : D) (a : Nd E) (sh : Option S) (v : Leaf D E P S) :
    loadLeaf w repr pad (some x) (.num kind d a sh) = some v ↔
      a.shape = [] ∧ ∃ p, w.conv t (w.item d (a.at_ [])) = some p ∧ v = .py p := by
  have hne : (t != PyT.complex) = true := by cases t <;> first | rfl | exact absurd rfl ht
  have : loadLeaf w repr pad (some x) (.num kind d a sh) =
      if a.shape = [] then (w.conv t (w.item d (a.at_ []))).map Leaf.py else none := by
    rcases hx with rfl | rfl <;> simp [loadLeaf, absHandleable, hne, handlerOf, restoreType, ht, readScalar]
  rw [this]
  by_cases hs : a.shape = []
  · simp only [hs, if_true, true_and, Option.map_eq_some_iff]
    exact ⟨fun ⟨p, h1, h2⟩ => ⟨p, h1, h2.symm⟩, fun ⟨p, h1, h2⟩ => ⟨p, h1, h2.symm⟩⟩
  · simp [hs]

/-- C108: asked for a NumPy array, every stored array is read as an array of the stored shape with its elements
converted to the type asked for, if one is named. -/
theorem C108_numpy (w : World D E P S) (repr : P → List Char) (pad : Bool) (dt : Option D) (g : Option (List Nat)) (kind : Kind)
    (d : D) (a : Nd E) (sh : Option S) :
    ∃ d' b, loadLeaf w repr pad (some (.shaped dt g)) (.num kind d a sh) = some (.np d' b) ∧ b.shape = a.shape ∧
      (dt = none → d' = d ∧ b = a) ∧ (∀ q, dt = some q → d' = q ∧ ∀ i, b.at_ i = w.cast d q (a.at_ i)) := by
  cases dt with
  | none => exact ⟨d, a, rfl, rfl, (fun _ => ⟨rfl, rfl⟩), (fun _ h => nomatch h)⟩
  | some q => exact ⟨q, _, rfl, rfl, (fun h => nomatch h), (fun q' h => by cases h; exact ⟨rfl, fun _ => rfl⟩)⟩

/-- The sharding an array is loaded with: the one asked for, else the recorded one if its devices exist. -/
def UseSharding (w : World D E P S) (asked stored : Option S) (s : S) : Prop :=
  asked = some s ∨ (asked = none ∧ stored = some s ∧ w.available s = true)

omit [DecidableEq D] in
theorem shardingFor_iff (w : World D E P S) (arg stored : Option S) (s : S) :
    shardingFor w arg stored = some s ↔ UseSharding w arg stored s := by
  cases arg with
  | some x => simp [shardingFor, UseSharding]
  | none => cases stored with
    | none => simp [shardingFor, UseSharding]
    | some y =>
      simp only [shardingFor, UseSharding]
      by_cases h : w.available y = true
      · simp only [h, if_true, Option.some.injEq, true_and]
        constructor
        · rintro rfl; exact Or.inr ⟨rfl, h⟩
        · rintro (h' | ⟨rfl, _⟩)
          · cases h'
          · rfl
      · rw [if_neg h]
        simp
        rintro rfl; simpa using h

/-- C108: asked for a `jax.Array`, without padding: it is loaded exactly if there is a sharding to use which can split
the shape and the shape asked for, if any, is the stored one; it has the type and sharding asked for and the
stored elements, converted. -/
theorem C108_sharded_iff (w : World D E P S) (repr : P → List Char) (dt : Option D) (g : Option (List Nat)) (s₀ : Option S)
    (kind : Kind) (d : D) (a : Nd E) (sh : Option S) (v : Leaf D E P S) :
    loadLeaf w repr false (some (.sharded dt g s₀)) (.num kind d a sh) = some v ↔
      ∃ s, UseSharding w s₀ sh s ∧ w.fits s a.shape = true ∧ (∀ g', g = some g' → g' = a.shape) ∧
        ((dt = none ∧ v = .jax d a s) ∨ ∃ q, dt = some q ∧ v = .jax q ⟨a.shape, fun i => w.cast d q (a.at_ i)⟩ s) := by
  have hl : loadLeaf w repr false (some (.sharded dt g s₀)) (.num kind d a sh) = readArray w ⟨dt, s₀, g, true⟩ d a sh := by
    simp [loadLeaf, absHandleable, handlerOf, restoreType, arrayArg, isType]
  rw [hl]
  simp only [readArray]
  cases hs : shardingFor w s₀ sh with
  | none =>
    constructor
    · intro h; cases h
    · rintro ⟨s, hu, _⟩; rw [(shardingFor_iff w _ _ _).mpr hu] at hs; cases hs
  | some s =>
    have hu := (shardingFor_iff w _ _ _).mp hs
    have hun : ∀ s', UseSharding w s₀ sh s' → s' = s := by
      intro s' h'; rw [(shardingFor_iff w _ _ _).mpr h'] at hs; exact Option.some.inj hs
    have hg : a.shape = g.getD a.shape ↔ ∀ g', g = some g' → g' = a.shape := by
      cases g with
      | none => simp
      | some g' => simp [eq_comm]
    simp only [if_true]
    constructor
    · intro h
      split at h
      · cases h
      rename_i hf
      split at h
      · rename_i hsh
        rw [← hsh] at hf
        refine ⟨s, hu, by simpa using hf, hg.mp hsh, ?_⟩
        cases dt with
        | none => exact Or.inl ⟨rfl, by simpa [openAs] using h.symm⟩
        | some q => exact Or.inr ⟨q, rfl, by simpa [openAs, convert] using h.symm⟩
      · cases h
    · rintro ⟨s', hu', hf, hgg, hv⟩
      obtain rfl := hun _ hu'
      have hsh := hg.mpr hgg
      rw [← hsh, hf]
      simp only [Bool.not_true, Bool.false_eq_true, if_false, if_true]
      rcases hv with ⟨rfl, rfl⟩ | ⟨q, rfl, rfl⟩ <;> rfl

/-- C108: with padding and truncation enabled, an array of another shape with as many axes is loaded too: cut, or
filled up with zeros, at the end of each axis. -/
theorem C108_padded (w : World D E P S) (repr : P → List Char) (q : D) (g : List Nat) (s₀ : Option S)
    (kind : Kind) (d : D) (a : Nd E) (sh : Option S) (v : Leaf D E P S) :
    loadLeaf w repr true (some (.sharded (some q) (some g) s₀)) (.num kind d a sh) = some v ↔
      a.shape.length = g.length ∧ ∃ s b, UseSharding w s₀ sh s ∧ w.fits s g = true ∧ v = .jax q b s ∧ b.shape = g ∧
        (∀ i, Pos a.shape i → b.at_ i = w.cast d q (a.at_ i)) ∧ (∀ i, ¬ Pos a.shape i → b.at_ i = w.zero q) := by
  have hl : loadLeaf w repr true (some (.sharded (some q) (some g) s₀)) (.num kind d a sh) = readArray w ⟨some q, s₀, some g, false⟩ d a sh := by
    simp [loadLeaf, absHandleable, handlerOf, restoreType, arrayArg, isType]
  rw [hl]
  simp only [readArray]
  cases hs : shardingFor w s₀ sh with
  | none =>
    constructor
    · intro h; cases h
    · rintro ⟨_, s, b, hu, _⟩; rw [(shardingFor_iff w _ _ _).mpr hu] at hs; cases hs
  | some s =>
    have hu := (shardingFor_iff w _ _ _).mp hs
    simp only [Option.getD_some, Bool.false_eq_true, if_false]
    constructor
    · intro h
      split at h
      · cases h
      rename_i hf
      split at h
      · rename_i hsh
        refine ⟨hsh, s, _, hu, by simpa using hf, (Option.some.inj h).symm, rfl, ?_, ?_⟩
        · intro i hi; simp [(inside_iff _ _).mpr hi, openAs, convert]
        · intro i hi; simp [mt (inside_iff _ _).mp hi, openAs]
      · cases h
    · rintro ⟨hsh, s', b, hu', hf, rfl, hb, hin, hout⟩
      have : s' = s := by rw [(shardingFor_iff w _ _ _).mpr hu'] at hs; exact Option.some.inj hs
      subst this
      rw [hf, if_pos hsh]
      simp only [Bool.not_true, Bool.false_eq_true, if_false]
      obtain ⟨bs, bf⟩ := b
      simp only at hb hin hout
      subst hb
      congr 3
      funext i
      by_cases hi : Pos a.shape i
      · rw [hin i hi, if_pos ((inside_iff _ _).mpr hi)]; rfl
      · rw [hout i hi, if_neg (mt (inside_iff _ _).mp hi)]; rfl

/-- C108: a leaf that is loaded is what was asked for: for all abstract leaves that are not NumPy scalars or strings,
if a NumPy array is asked for by its element type only and padding or the checks see to the shape of others. -/
theorem C108_asked_partial (w : World D E P S) (isInt isFloat : D → Bool) (hw : Laws w isInt isFloat) (repr : P → List Char) (pad : Bool) (x : Abs D S)
    (h1 : ∀ d, x ≠ .npScalarVal d ∧ x ≠ .npScalarType d) (h2 : x ≠ .strType ∧ ∀ t, x ≠ .strVal t) (h3 : ∀ d g, x ≠ .shaped d (some g))
    (st : Stored D E S) (v : Leaf D E P S) (h : loadLeaf w repr pad (some x) st = some v) : Asked w x v := by
  cases st with
  | text t =>
    cases x with
    | pyVal t' => cases t' <;> simp [loadLeaf, absHandleable, handlerOf, restoreType] at h
    | pyType t' => cases t' <;> simp [loadLeaf, absHandleable, handlerOf, restoreType] at h
    | npScalarVal d => exact absurd rfl (h1 d).1
    | npScalarType d => exact absurd rfl (h1 d).2
    | strVal s => exact absurd rfl (h2.2 s)
    | strType => exact absurd rfl h2.1
    | other => simp [loadLeaf, absHandleable] at h
    | _ => simp [loadLeaf, absHandleable, handlerOf, restoreType] at h
  | num kind d a sh =>
    have num : ∀ t, (x = .pyVal t ∨ x = .pyType t) → ∃ p, v = .py p ∧ w.tyOf p = t := by
      intro t hx
      by_cases ht : t = .complex
      · subst ht; rcases hx with rfl | rfl <;> simp [loadLeaf, absHandleable] at h
      · obtain ⟨_, p, hp, hv⟩ := (C108_number_iff w repr pad x t ht hx kind d a sh v).mp h
        exact ⟨p, hv, hw.conv _ _ _ hp⟩
    cases x with
    | pyVal t => exact num t (Or.inl rfl)
    | pyType t => exact num t (Or.inr rfl)
    | npScalarVal d => exact absurd rfl (h1 d).1
    | npScalarType d => exact absurd rfl (h1 d).2
    | strVal s => exact absurd rfl (h2.2 s)
    | strType => exact absurd rfl h2.1
    | other => simp [loadLeaf, absHandleable] at h
    | npType => simp [loadLeaf, absHandleable, handlerOf, restoreType, numpyDtype, isType] at h; exact ⟨_, _, h.symm⟩
    | shaped dt g =>
      cases g with
      | some g => exact absurd rfl (h3 dt g)
      | none =>
        obtain ⟨d', b, hl, _, _, hq⟩ := C108_numpy w repr pad dt none kind d a sh
        rw [hl] at h; cases h
        exact ⟨d', b, rfl, fun q hq' => (hq q hq').1, fun _ hg => nomatch hg⟩
    | jaxType =>
      simp only [loadLeaf, absHandleable, handlerOf, restoreType, arrayArg, isType, Option.map_some, Option.getD_some, Bool.not_true, Bool.false_eq_true,
        if_false, Option.bind_some, if_true, readArray] at h
      cases hs : shardingFor w none sh with
      | none => simp [hs] at h
      | some s =>
        simp only [hs] at h
        split at h
        · cases h
        · simp at h; exact ⟨_, _, _, h.symm⟩
    | sharded dt g s₀ =>
      simp only [loadLeaf, absHandleable, handlerOf, restoreType, arrayArg, isType, Option.map_some, Option.getD_some, Bool.not_true, Bool.false_eq_true,
        if_false, Option.bind_some, readArray] at h
      cases hs : shardingFor w s₀ sh with
      | none => simp [hs] at h
      | some s =>
        simp only [hs] at h
        have hsame : ∀ s₁, s₀ = some s₁ → s = s₁ := by rintro s₁ rfl; simp only [shardingFor, Option.some.injEq] at hs; exact hs.symm
        have hd : ∀ q, dt = some q → (openAs w d a dt).1 = q := by rintro q rfl; rfl
        have hshape : (openAs w d a dt).2.shape = a.shape := by cases dt <;> rfl
        split at h
        · cases h
        split at h
        · split at h
          · rename_i hsh
            refine ⟨_, _, _, (Option.some.inj h).symm, hd, ?_, hsame⟩
            rintro g' rfl
            rw [hshape, hsh]; rfl
          · cases h
        · split at h
          · refine ⟨_, _, _, (Option.some.inj h).symm, hd, ?_, hsame⟩
            rintro g' rfl; rfl
          · cases h

/-! ### Round trips -/

/-- C108: a leaf saved without a storage type comes back as it was when nothing is asked for: Python numbers, NumPy
arrays and strings exactly, `jax.Array`s with their sharding if it was recorded, its devices exist and it can split
the array (else loading fails).  An `np.float64` comes back as a Python number. -/
theorem C108_round_trip (w : World D E P S) (isInt isFloat : D → Bool) (hw : Laws w isInt isFloat) (repr : P → List Char) (pad : Bool)
    (o : Saving K (Leaf D E P S) D) (k : K) (x : Leaf D E P S) (hd : (resolve o k x).dtype = none) (st : Stored D E S)
    (h : saveLeaf w o k x = some st) :
    (∀ p, x = .py p → loadLeaf w repr pad none st = some x) ∧
    (∀ d a, x = .np d a → loadLeaf w repr pad none st = some x) ∧
    (∀ t, x = .str t → loadLeaf w repr pad none st = some x) ∧
    (∀ d e, x = .npScalar d e → loadLeaf w repr pad none st = some (.py (w.item d e))) ∧
    (∀ d a s, x = .jax d a s → loadLeaf w repr pad none st =
      if o.shardingFile = true ∧ w.recorded s = true ∧ w.available s = true ∧ w.fits s a.shape = true then some x else none) := by
  rcases C108_stored w o k x st h with ⟨t, rfl, rfl⟩ | ⟨kind, d, a, d', b, sh, rfl, _, hnone, _, _, hb, _, hx⟩
  · exact ⟨(fun _ h => nomatch h), (fun _ _ h => nomatch h), (fun _ _ => rfl), (fun _ _ h => nomatch h), (fun _ _ _ h => nomatch h)⟩
  · obtain rfl := hnone hd
    obtain rfl := hb rfl
    rcases hx with ⟨rfl, rfl, rfl⟩ | ⟨s, rfl, rfl, hsh, hiff⟩ | ⟨e, rfl, rfl, rfl, rfl⟩ | ⟨p, e, rfl, hp, rfl, rfl, rfl⟩
    · exact ⟨(fun _ h => nomatch h), (fun _ _ _ => rfl), (fun _ h => nomatch h), (fun _ _ h => nomatch h), (fun _ _ _ h => nomatch h)⟩
    · refine ⟨fun _ h => (nomatch h), fun _ _ h => (nomatch h), fun _ h => (nomatch h), fun _ _ h => (nomatch h), ?_⟩
      intro d₁ a₁ s₁ hj
      cases hj
      have hl : loadLeaf w repr pad none (.num .jax d' b sh) = readArray w ⟨none, none, none, true⟩ d' b sh := rfl
      rw [hl]
      by_cases hr : o.shardingFile = true ∧ w.recorded s = true
      · rw [hiff.mpr hr]
        simp only [readArray, shardingFor, openAs, Option.getD_none, hr.1, hr.2, true_and]
        by_cases ha : w.available s = true
        · simp only [ha, if_true, true_and]
          cases w.fits s b.shape <;> simp
        · simp [ha]
      · have : sh = none := by rcases hsh with h1 | h1; exact absurd (hiff.mp h1) hr; exact h1
        subst this
        rw [if_neg (fun hh => hr ⟨hh.1, hh.2.1⟩)]
        rfl
    · refine ⟨fun _ h => (nomatch h), fun _ _ h => (nomatch h), fun _ h => (nomatch h), ?_, fun _ _ _ h => (nomatch h)⟩
      intro d₁ e₁ hj; cases hj; rfl
    · refine ⟨?_, fun _ _ h => (nomatch h), fun _ h => (nomatch h), fun _ _ h => (nomatch h), fun _ _ _ h => (nomatch h)⟩
      intro p₁ hj; cases hj
      simp [loadLeaf, handlerOf, readScalar, hw.base.item p d' e hp]

/-- C108: what the metadata of a checkpoint says of a leaf: the element type and shape of an array (and the sharding of
a `jax.Array`), the Python type of a number; it fails exactly for numbers that are neither integers nor floats. -/
theorem C108_metadata (isInt isFloat : D → Bool) (kind : Kind) (hk : kind ≠ .string) (d : D) (a : Nd E) (sh : Option S) (m : Meta D S) :
    metaLeaf isInt isFloat (.num kind d a sh) = some m ↔
      (kind = .np ∧ m = .array d a.shape) ∨ (kind = .jax ∧ m = .sharded d a.shape sh) ∨
      (kind = .scalar ∧ ((isInt d = true ∧ m = .number .int) ∨ (isInt d = false ∧ isFloat d = true ∧ m = .number .float))) := by
  cases kind with
  | string => exact absurd rfl hk
  | np => simp only [metaLeaf, Option.some.injEq, true_and, reduceCtorEq, false_and, or_false]; exact eq_comm
  | jax => simp only [metaLeaf, Option.some.injEq, true_and, reduceCtorEq, false_and, or_false, false_or]; exact eq_comm
  | scalar =>
    cases h1 : isInt d <;> cases h2 : isFloat d <;> simp [metaLeaf, h1, h2] <;> exact eq_comm

/-- C108: loading with the metadata of the checkpoint as the abstract tree gives what loading without an abstract tree
gives, or both fail. -/
theorem C108_metadata_target (w : World D E P S) (isInt isFloat : D → Bool) (hw : Laws w isInt isFloat) (repr : P → List Char) (pad : Bool)
    (st : Stored D E S) (hsc : ∀ d a sh, st = .num .scalar d a sh → a.shape = []) (m : Meta D S) (hm : metaLeaf isInt isFloat st = some m) :
    (∀ v, loadLeaf w repr pad none st = some v → ∃ x v', metaAbs w m = some x ∧ loadLeaf w repr pad (some x) st = some v' ∧ Same v v') ∧
    (loadLeaf w repr pad none st = none → ∀ x, metaAbs w m = some x → loadLeaf w repr pad (some x) st = none) := by
  have hid : ∀ d (a : Nd E), convert w d d a = a := by
    intro d a
    obtain ⟨sh, f⟩ := a
    simp only [convert]
    congr 1
    funext i
    exact hw.base.cast d _
  cases st with
  | text t =>
    cases hm
    refine ⟨fun v hv => ⟨_, v, rfl, hv, .refl v⟩, fun hn => ?_⟩
    cases hn
  | num kind d a sh =>
    cases kind with
    | string => cases hm
    | np =>
      cases hm
      refine ⟨fun v hv => ⟨_, v, rfl, ?_, .refl v⟩, fun hn => ?_⟩
      · have e1 : loadLeaf w repr pad none (.num .np d a sh) = some (.np d a) := rfl
        rw [e1] at hv
        have : loadLeaf w repr pad (some (.shaped (some d) (some a.shape))) (.num .np d a sh) = some (.np d (convert w d d a)) := rfl
        rw [this, hid, hv]
      · cases hn
    | scalar =>
      have hsh := hsc d a sh rfl
      have hnone : loadLeaf w repr pad none (.num .scalar d a sh) = some (.py (w.item d (a.at_ []))) := by simp [loadLeaf, handlerOf, readScalar, hsh]
      rw [hnone]
      refine ⟨?_, fun hn => nomatch hn⟩
      rintro v hv
      cases hv
      have fin : ∀ t, w.tyOf (w.item d (a.at_ [])) = t → t ≠ .complex →
          loadLeaf w repr pad (some (.pyVal t)) (.num .scalar d a sh) = some (.py (w.item d (a.at_ []))) := by
        intro t ht hc
        exact (C108_number_iff w repr pad _ t hc (Or.inl rfl) _ _ _ _ _).mpr ⟨hsh, _, ht ▸ hw.base.conv _, rfl⟩
      simp only [metaLeaf] at hm
      by_cases hi : isInt d = true
      · rw [if_pos hi] at hm; cases hm
        exact ⟨_, _, rfl, fin .int (hw.int _ _ hi) (by decide), .refl _⟩
      · rw [if_neg hi] at hm
        by_cases hf : isFloat d = true
        · rw [if_pos hf] at hm; cases hm
          exact ⟨_, _, rfl, fin .float (hw.float _ _ (by simpa using hi) hf) (by decide), .refl _⟩
        · rw [if_neg hf] at hm; cases hm
    | jax =>
      cases hm
      have hl : loadLeaf w repr pad none (.num .jax d a sh) = readArray w ⟨none, none, none, true⟩ d a sh := rfl
      have hx : ∀ s₀, loadLeaf w repr pad (some (.sharded (some d) (some a.shape) s₀)) (.num .jax d a sh) = readArray w ⟨some d, s₀, some a.shape, !pad⟩ d a sh :=
        fun s₀ => rfl
      rw [hl]
      cases sh with
      | none => exact ⟨(fun v hv => nomatch hv), (fun _ x hx' => by cases hx'; rfl)⟩
      | some s =>
        by_cases ha : w.available s = true
        · have hm : metaAbs w (.sharded d a.shape (some s)) = some (.sharded (some d) (some a.shape) (some s)) := by simp [metaAbs, ha]
          rw [hm]
          have e1 : readArray w ⟨none, none, none, true⟩ d a (some s) = if w.fits s a.shape then some (.jax d a s) else none := by
            simp only [readArray, shardingFor, ha, if_true, openAs, Option.getD_none]
            cases w.fits s a.shape <;> rfl
          have e2 : readArray w ⟨some d, some s, some a.shape, !pad⟩ d a (some s) = if w.fits s a.shape then
              some (.jax d (if pad then ⟨a.shape, fun i => if inside a.shape i then a.at_ i else w.zero d⟩ else a) s) else none := by
            simp only [readArray, shardingFor, openAs, Option.getD_some, hid]
            cases w.fits s a.shape <;> cases pad <;> simp
          rw [e1]
          cases hf : w.fits s a.shape with
          | false =>
            refine ⟨(fun v hv => by simp at hv), fun _ x hx' => ?_⟩
            cases hx'
            rw [hx, e2, hf]; rfl
          | true =>
            refine ⟨?_, (fun hn => by simp at hn)⟩
            intro v hv
            simp only [if_true, Option.some.injEq] at hv
            subst hv
            refine ⟨_, _, rfl, by rw [hx, e2, hf]; rfl, ?_⟩
            cases pad with
            | false => exact .refl _
            | true =>
              refine .jax _ _ _ _ rfl ?_
              intro i hi
              simp [(inside_iff _ _).mpr hi]
        · have hm : metaAbs w (.sharded d a.shape (some s)) = none := by simp [metaAbs, ha]
          refine ⟨fun v hv => ?_, fun _ x hx' => ?_⟩
          · simp [readArray, shardingFor, ha] at hv
          · rw [hm] at hx'; cases hx'

/-! ### Findings -/

/-- C108 (finding): the shape of an abstract NumPy leaf is not used: an array of any other shape is loaded, without an
error. -/
theorem C108_numpy_shape_fails (w : World D E P S) (repr : P → List Char) (pad : Bool) (dt : Option D) (g : List Nat) (kind : Kind)
    (d : D) (a : Nd E) (sh : Option S) (h : a.shape ≠ g) :
    ∃ v, loadLeaf w repr pad (some (.shaped dt (some g))) (.num kind d a sh) = some v ∧ ¬ Asked w (.shaped dt (some g)) v := by
  obtain ⟨d', b, hl, hb, _⟩ := C108_numpy w repr pad dt (some g) kind d a sh
  refine ⟨_, hl, ?_⟩
  rintro ⟨d₁, a₁, h1, _, h3⟩
  cases h1
  exact h (hb ▸ h3 g rfl)

/-- C108 (finding): a NumPy scalar, other than an `np.float64`, is documented as a leaf that can be saved, but a tree
with one is refused. -/
theorem C108_numpy_scalar_fails (w : World D E P S) (o : Saving K (Leaf D E P S) D) (t : List (K × Leaf D E P S)) (k : K) (d : D) (e : E)
    (hd : d ≠ w.f64) (h : (k, Leaf.npScalar d e) ∈ t) : saveTree w o t = none := by
  simp only [saveTree]
  rw [if_neg]
  intro hall
  have := List.all_eq_true.mp hall _ h
  simp [handleable, kindOf, hd] at this

/-- C108 (finding): asked for a NumPy scalar (a value or a type), an array is returned. -/
theorem C108_numpy_scalar_asked_fails (w : World D E P S) (repr : P → List Char) (pad : Bool) (d' : D) (kind : Kind) (d : D) (a : Nd E) (sh : Option S) :
    (∃ v, loadLeaf w repr pad (some (.npScalarVal d')) (.num kind d a sh) = some v ∧ ¬ Asked w (.npScalarVal d') v) ∧
    (∃ v, loadLeaf w repr pad (some (.npScalarType d')) (.num kind d a sh) = some v ∧ ¬ Asked w (.npScalarType d') v) :=
  ⟨⟨_, rfl, (fun ⟨_, h⟩ => nomatch h)⟩, ⟨_, rfl, (fun ⟨_, h⟩ => nomatch h)⟩⟩

/-- C108 (finding): asked for `str`, an array that was saved is returned as an array; a value of type `str` makes
loading it fail. -/
theorem C108_string_asked_fails (w : World D E P S) (repr : P → List Char) (pad : Bool) (d : D) (a : Nd E) (sh : Option S) (t : List Char) :
    loadLeaf w repr pad (some .strType) (.num .np d a sh) = some (.np d a) ∧
    loadLeaf w repr pad (some (.strVal t)) (.num .np d a sh) = none ∧ loadLeaf w repr pad (some (.strVal t)) (.num .jax d a sh) = none :=
  ⟨rfl, rfl, rfl⟩

/-- C108 (finding): one number in a tree stored with a type that is neither an integer nor a float of NumPy (a `bool`,
or any number if the storage type is `bfloat16`) makes reading the metadata of the whole tree fail. -/
theorem C108_metadata_fails (isInt isFloat : D → Bool) (ckpt : List (K × Stored D E S)) (k : K) (d : D) (a : Nd E) (sh : Option S)
    (hi : isInt d = false) (hf : isFloat d = false) (h : (k, Stored.num .scalar d a sh) ∈ ckpt) : metaTree isInt isFloat ckpt = none := by
  simp only [metaTree]
  induction ckpt with
  | nil => cases h
  | cons q qs ih =>
    rw [List.mapM_cons]
    rcases List.mem_cons.mp h with rfl | h'
    · simp [metaLeaf, hi, hf]
    · rw [ih h']
      cases (metaLeaf isInt isFloat q.2).map fun m => (q.1, m) <;> rfl

/-- C108 (finding): a storage type given for all leaves is applied to Python integers too: what comes back is the integer
converted to that type, for example a step counter rounded to `bfloat16`. -/
theorem C108_integer_storage_fails (w : World D E P S) (repr : P → List Char) (pad : Bool) (q : D) (f : Bool) (k : K) (p : P) (d : D) (e : E)
    (hp : w.ofPy p = some (d, e)) (hc : w.tyOf p ≠ .complex) (hq : q ≠ d) :
    (saveLeaf w (⟨some ⟨some q, none, none⟩, none, f⟩ : Saving K (Leaf D E P S) D) k (.py p)).bind (loadLeaf w repr pad none) =
      some (.py (w.item q (w.cast d q e))) := by
  simp [saveLeaf, hc, hp, resolve, write, hq, loadLeaf, handlerOf, readScalar, convert]

/-! ### Concrete cases -/

namespace Ex

open Verif.Handlers.Standard.Ex (Dt Num w lawful two)

def isInt : Dt → Bool
  | .i64 => true
  | _ => false

def isFloat : Dt → Bool
  | .f32 => true
  | .f64 => true
  | _ => false

theorem laws : Laws w isInt isFloat where
  base := lawful
  conv t p q h := by
    cases t <;> cases p <;> simp [w] at h <;> subst h <;> rfl
  int d e h := by cases d <;> first | rfl | cases h
  float d e _ h' := by cases d <;> first | rfl | cases h'

/-- Integers lose their last binary digit when they are converted to `f32`, as large ones do in `bfloat16`. -/
def wb : World Dt Int Num Nat :=
  { w with cast := fun d d' e => match d, d' with
      | .i64, .f32 => 2 * (e / 2 * 2)
      | d, d' => w.cast d d' e }

/-- Arrays are stored as `f32`, except for the leaf `b`, which has a chunk size of its own too. -/
def opts : Saving String (Leaf Dt Int Num Nat) Dt :=
  ⟨some ⟨some .f32, some 64, none⟩, some (fun k _ => if k = "b" then some ⟨some .f64, none, some [1]⟩ else none), true⟩

def plain : Saving String (Leaf Dt Int Num Nat) Dt := ⟨none, none, true⟩

def repr (_ : Num) : List Char := ['?']

def tree : List (String × Leaf Dt Int Num Nat) :=
  [("w", .jax .f32 (two 3 5) 1), ("b", .np .f64 (two 7 9)), ("step", .py (.int 40)), ("lr", .npScalar .f64 3), ("name", .str ['x'])]

end Ex

open Ex Verif.Handlers.Standard.Ex in
/-- C108: options of single leaves and of all; a tree of every kind of leaf saved; leaves loaded as asked, in other
types, shapes and shardings; metadata; and numbers changed by the storage type. -/
theorem C108_nonvacuous :
    (resolve opts "b" (.other : Leaf Dt Int Num Nat)).dtype = some .f64 ∧ (resolve opts "b" (.other : Leaf Dt Int Num Nat)).chunk = some 64 ∧
    (resolve opts "b" (.other : Leaf Dt Int Num Nat)).axes = [1] ∧ (resolve opts "w" (.other : Leaf Dt Int Num Nat)).dtype = some .f32 ∧
    (saveTree w plain tree).isSome = true ∧ saveTree w plain (("s", .npScalar .f32 3) :: tree) = none ∧
    ((saveLeaf w plain "w" (.jax .f32 (two 3 5) 1)).bind (loadLeaf w repr false none)).isSome = true ∧
    ((saveLeaf w plain "w" (.jax .f32 (two 3 5) 1)).bind (loadLeaf w repr false (some (.sharded (some .i64) (some [2]) (some 0))))).isSome = true ∧
    ((saveLeaf w plain "w" (.jax .f32 (two 3 5) 1)).bind (loadLeaf w repr false (some (.sharded (some .i64) (some [3]) (some 0))))).isSome = false ∧
    ((saveLeaf w plain "w" (.jax .f32 (two 3 5) 1)).bind (loadLeaf w repr true (some (.sharded (some .i64) (some [3]) (some 0))))).isSome = true ∧
    (saveLeaf w plain "step" (.py (.int 40))).bind (loadLeaf w repr false (some (.pyType .float))) = some (.py (.float 80)) ∧
    (saveLeaf w plain "lr" (.py (.float 3))).bind (loadLeaf w repr false (some (.pyVal .int))) = some (.py (.int 1)) ∧
    (saveLeaf w plain "on" (.py (.bool true))).bind (metaLeaf isInt isFloat) = none ∧
    (saveLeaf w plain "step" (.py (.int 40))).bind (metaLeaf isInt isFloat) = some (.number .int) ∧
    (saveLeaf wb opts "step" (.py (.int 41))).bind (loadLeaf wb repr false none) = some (.py (.float 80)) :=
  ⟨rfl, rfl, rfl, rfl, rfl, rfl, rfl, rfl, rfl, rfl, rfl, rfl, rfl, rfl, rfl⟩

open Ex Verif.Handlers.Standard.Ex in
/-- C108: the hypotheses of `C108_round_trip`, `C108_asked_partial` and `C108_metadata_target` hold for concrete leaves. -/
theorem C108_laws_nonvacuous :
    Laws w isInt isFloat ∧ (∃ st, saveLeaf w plain "w" (.jax .f32 (two 3 5) 1) = some st ∧ loadLeaf w repr true none st = some (.jax .f32 (two 3 5) 1)) ∧
    (∃ v, loadLeaf w repr false (some (.sharded (some .i64) none none)) (.num .jax .f32 (two 3 5) (some 1)) = some v ∧
      Asked w (.sharded (some .i64) none none) v) ∧
    (∃ v v', loadLeaf w repr true none (.num .jax .f32 (two 3 5) (some 1)) = some v ∧
      loadLeaf w repr true (some (.sharded (some .f32) (some [2]) (some 1))) (.num .jax .f32 (two 3 5) (some 1)) = some v' ∧ Same v v') := by
  refine ⟨laws, ⟨_, rfl, ?_⟩, ⟨_, rfl, ?_⟩, ?_⟩
  · exact (C108_round_trip w isInt isFloat laws repr true plain "w" (.jax .f32 (two 3 5) 1) rfl _ rfl).2.2.2.2 .f32 (two 3 5) 1 rfl
  · exact C108_asked_partial w isInt isFloat laws repr false (.sharded (some .i64) none none) (fun _ => ⟨nofun, nofun⟩) ⟨nofun, nofun⟩ (fun _ _ => nofun) (.num .jax .f32 (two 3 5) (some 1)) _ rfl
  · obtain ⟨x, v', hx, hv, hs⟩ := (C108_metadata_target w isInt isFloat laws repr true (.num .jax .f32 (two 3 5) (some 1)) (fun _ _ _ => nofun)
      (.sharded .f32 [2] (some 1)) rfl).1 _ rfl
    cases hx
    exact ⟨_, v', rfl, hv, hs⟩

end Verif.Handlers.Leaves
