import Verif.Export.Validate
import Verif.Export.ValidateSpec

/-!
# C96: the report passes exactly when the outputs agree
-/

namespace Verif.Export.ValidateProps
open Verif.Export.Validate Verif.Export.ValidateSpec

/-! ## Sorting -/

theorem insertKey_perm {V : Type} (x : String × Leaf V) (d : Dict V) :
    (insertKey x d).Perm (x :: d) := by
  induction d with
  | nil => exact List.Perm.refl _
  | cons y ys ih =>
    simp only [insertKey]
    split
    · exact List.Perm.refl _
    · exact (ih.cons y).trans (List.Perm.swap x y ys)

theorem flatten_perm {V : Type} (d : Dict V) : (flatten d).Perm d := by
  induction d with
  | nil => exact List.Perm.refl _
  | cons x xs ih => exact (insertKey_perm x _).trans (ih.cons x)

/-- Sorted without repetition. -/
def Sorted (l : List String) : Prop := l.Pairwise (· < ·)

theorem str_lt_of_not {a b : String} (h : ¬ a < b) (hne : a ≠ b) : b < a := by
  rcases Std.lt_trichotomy a b with h' | h' | h'
  · exact absurd h' h
  · exact absurd h' hne
  · exact h'

theorem insertKey_sorted {V : Type} (x : String × Leaf V) :
    ∀ d : Dict V, Sorted (d.map (·.1)) → x.1 ∉ d.map (·.1) →
      Sorted ((insertKey x d).map (·.1)) := by
  intro d
  induction d with
  | nil => intro _ _; simp [insertKey, Sorted]
  | cons y ys ih =>
    intro hs hx
    simp only [List.map_cons, Sorted, List.pairwise_cons] at hs
    simp only [List.map_cons, List.mem_cons, not_or] at hx
    simp only [insertKey]
    split
    · rename_i hlt
      simp only [List.map_cons, Sorted, List.pairwise_cons]
      refine ⟨?_, hs⟩
      intro z hz
      rcases List.mem_cons.1 hz with h | h
      · exact h ▸ hlt
      · exact String.lt_trans hlt (hs.1 z h)
    · rename_i hlt
      simp only [List.map_cons, Sorted, List.pairwise_cons]
      refine ⟨?_, ih hs.2 hx.2⟩
      intro z hz
      have : z ∈ (x :: ys).map (·.1) := ((insertKey_perm x ys).map (·.1)).mem_iff.1 hz
      rcases List.mem_cons.1 this with h | h
      · rw [h]; exact str_lt_of_not hlt hx.1
      · exact hs.1 z h

theorem flatten_sorted {V : Type} (d : Dict V) (h : (d.map (·.1)).Nodup) :
    Sorted ((flatten d).map (·.1)) := by
  induction d with
  | nil => simp [flatten, Sorted]
  | cons x xs ih =>
    simp only [List.map_cons, List.nodup_cons] at h
    refine insertKey_sorted x (flatten xs) (ih h.2) ?_
    intro hm
    exact h.1 (((flatten_perm xs).map (·.1)).mem_iff.1 hm)

theorem sorted_ext : ∀ l l' : List String, Sorted l → Sorted l' →
    (∀ k, k ∈ l ↔ k ∈ l') → l = l' := by
  intro l
  induction l with
  | nil =>
    intro l' _ _ h
    cases l' with
    | nil => rfl
    | cons y ys => exact absurd ((h y).2 (List.mem_cons_self ..)) (by simp)
  | cons x xs ih =>
    intro l' hs hs' h
    cases l' with
    | nil => exact absurd ((h x).1 (List.mem_cons_self ..)) (by simp)
    | cons y ys =>
      simp only [Sorted, List.pairwise_cons] at hs hs'
      have hxy : x = y := by
        rcases List.mem_cons.1 ((h x).1 (List.mem_cons_self ..)) with e | e
        · exact e
        · rcases List.mem_cons.1 ((h y).2 (List.mem_cons_self ..)) with e' | e'
          · exact e'.symm
          · exact absurd (String.lt_trans (hs'.1 x e) (hs.1 y e')) (String.lt_irrefl _)
      subst hxy
      rw [ih ys hs.2 hs'.2]
      intro k
      constructor
      · intro hk
        rcases List.mem_cons.1 ((h k).1 (List.mem_cons_of_mem _ hk)) with e | e
        · exact absurd (e ▸ hs.1 k hk) (String.lt_irrefl _)
        · exact e
      · intro hk
        rcases List.mem_cons.1 ((h k).2 (List.mem_cons_of_mem _ hk)) with e | e
        · exact absurd (e ▸ hs'.1 k hk) (String.lt_irrefl _)
        · exact e

/-! ## Aligned lists of outputs -/

/-- The same names in the same order, with the same forms. -/
inductive Aligned {V : Type} : Dict V → Dict V → Prop where
  | nil : Aligned [] []
  | cons (k : String) (x y : Leaf V) (l l' : Dict V) (h : SameForm x y)
      (t : Aligned l l') : Aligned ((k, x) :: l) ((k, y) :: l')

theorem Aligned.append {V : Type} {a a' b b' : Dict V} (h : Aligned a a')
    (h' : Aligned b b') : Aligned (a ++ b) (a' ++ b') := by
  induction h with
  | nil => exact h'
  | cons k x y l l' hf _ ih => exact .cons k x y _ _ hf ih

theorem Aligned.length {V : Type} {a a' : Dict V} (h : Aligned a a') :
    a.length = a'.length := by
  induction h with
  | nil => rfl
  | cons k x y l l' hf _ ih => simp [ih]

theorem aligned_of {V : Type} : ∀ l l' : Dict V, l.map (·.1) = l'.map (·.1) →
    (l.map (·.1)).Nodup →
    (∀ k x y, (k, x) ∈ l → (k, y) ∈ l' → SameForm x y) → Aligned l l' := by
  intro l
  induction l with
  | nil =>
    intro l' h _ _
    cases l' with
    | nil => exact .nil
    | cons y ys => simp at h
  | cons p l ih =>
    intro l' h hn hf
    cases l' with
    | nil => simp at h
    | cons q l' =>
      simp only [List.map_cons, List.cons.injEq] at h
      simp only [List.map_cons, List.nodup_cons] at hn
      obtain ⟨k, x⟩ := p
      obtain ⟨k', y⟩ := q
      simp only at h
      obtain ⟨hk, ht⟩ := h
      subst hk
      refine .cons k x y l l' (hf k x y (List.mem_cons_self ..) (List.mem_cons_self ..)) ?_
      exact ih l' ht hn.2 fun k x y h1 h2 =>
        hf k x y (List.mem_cons_of_mem _ h1) (List.mem_cons_of_mem _ h2)

theorem mem_names {V : Type} (d : Dict V) (k : String) :
    k ∈ d.map (·.1) ↔ ∃ x, (k, x) ∈ d := by
  simp

theorem flatten_keys {V : Type} {b c : Dict V} (h : Comparable b c) :
    (flatten b).map (·.1) = (flatten c).map (·.1) := by
  refine sorted_ext _ _ (flatten_sorted b h.nodup) (flatten_sorted c h.nodup') ?_
  intro k
  rw [((flatten_perm b).map (·.1)).mem_iff, ((flatten_perm c).map (·.1)).mem_iff,
    mem_names, mem_names]
  exact h.names k

theorem flatten_aligned {V : Type} {b c : Dict V} (h : Comparable b c) :
    Aligned (flatten b) (flatten c) := by
  refine aligned_of _ _ (flatten_keys h) ?_ ?_
  · exact ((flatten_perm b).map (·.1)).nodup_iff.2 h.nodup
  · intro k x y hx hy
    exact h.form k x y ((flatten_perm b).mem_iff.1 hx) ((flatten_perm c).mem_iff.1 hy)

/-! ## The comparison of aligned lists -/

theorem floats_append {V : Type} (a b : List (Leaf V)) :
    floats (a ++ b) = floats a ++ floats b := by
  induction a with
  | nil => rfl
  | cons x xs ih => cases x <;> simp [floats, ih]

theorem discretes_append {V : Type} (a b : List (Leaf V)) :
    discretes (a ++ b) = discretes a ++ discretes b := by
  induction a with
  | nil => rfl
  | cons x xs ih => cases x <;> simp [discretes, ih]

theorem Aligned.floats_length {V : Type} {a b : Dict V} (h : Aligned a b) :
    (floats (a.map (·.2))).length = (floats (b.map (·.2))).length := by
  induction h with
  | nil => rfl
  | cons k x y l l' hf _ ih => cases hf <;> simp_all [floats]

theorem Aligned.discretes_length {V : Type} {a b : Dict V} (h : Aligned a b) :
    (discretes (a.map (·.2))).length = (discretes (b.map (·.2))).length := by
  induction h with
  | nil => rfl
  | cons k x y l l' hf _ ih => cases hf <;> simp_all [discretes]

theorem isclose_iff (x y : Fl) (rtol atol : Rat) :
    isclose y x rtol atol = true ↔ Close atol rtol x y := by
  have hm : ∀ q : Rat, absq q = mag q := by
    intro q
    unfold absq mag
    split <;> split <;> grind
  constructor
  · intro h
    cases x <;> cases y <;> simp [isclose, hm] at h
    · exact .fin _ _ h
    · subst h; exact .inf _
  · intro h
    cases h with
    | fin x y h => simp [isclose, hm, h]
    | inf s => simp [isclose]

theorem allclose_append (rtol atol : Rat) : ∀ (a a' b b' : List Fl),
    a.length = a'.length →
    allclose (a ++ b) (a' ++ b') rtol atol =
      (allclose a a' rtol atol && allclose b b' rtol atol) := by
  intro a
  induction a with
  | nil =>
    intro a' b b' h
    cases a' with
    | nil => simp [allclose]
    | cons => simp at h
  | cons x xs ih =>
    intro a' b b' h
    cases a' with
    | nil => simp at h
    | cons y ys =>
      simp only [List.length_cons, Nat.add_right_cancel_iff] at h
      simp [allclose, ih ys b b' h, Bool.and_assoc]

theorem allclose_iff (rtol atol : Rat) : ∀ (d d' : List Fl), d.length = d'.length →
    (allclose d' d rtol atol = true ↔
      ∀ (n : Nat) x y, d[n]? = some x → d'[n]? = some y → Close atol rtol x y) := by
  intro d
  induction d with
  | nil =>
    intro d' h
    cases d' with
    | nil => simp [allclose]
    | cons => simp at h
  | cons x xs ih =>
    intro d' h
    cases d' with
    | nil => simp at h
    | cons y ys =>
      simp only [List.length_cons, Nat.add_right_cancel_iff] at h
      simp only [allclose, Bool.and_eq_true, isclose_iff, ih ys h]
      constructor
      · rintro ⟨h0, h1⟩ n u v hu hv
        cases n with
        | zero =>
          simp at hu hv
          subst hu; subst hv
          exact h0
        | succ n => exact h1 n u v (by simpa using hu) (by simpa using hv)
      · intro h1
        refine ⟨h1 0 x y (by simp) (by simp), ?_⟩
        intro n u v hu hv
        exact h1 (n + 1) u v (by simpa using hu) (by simpa using hv)

/-- Everywhere different, as a comparison of corresponding elements. -/
theorem all_zip_differ {V : Type} [DecidableEq V] : ∀ d d' : List V,
    d.length = d'.length →
    ((d.zip d').all fun p => decide (p.1 ≠ p.2)) = differEverywhere d d' := by
  intro d
  induction d with
  | nil => intro d' _; simp [differEverywhere]
  | cons x xs ih =>
    intro d' h
    cases d' with
    | nil => simp at h
    | cons y ys =>
      simp only [List.length_cons, Nat.add_right_cancel_iff] at h
      have := ih ys h
      simp only [differEverywhere] at this ⊢
      simp only [List.zip_cons_cons, List.all_cons, List.length_cons, this]
      rw [List.range_succ_eq_map]
      simp only [List.all_cons, List.all_map]
      congr 1
      simp

/-- What the report counts for two outputs of one name. -/
def bad2 {V : Type} [DecidableEq V] (x y : Leaf V) : Bool :=
  match x, y with
  | .disc _ d, .disc _ d' => differEverywhere d d'
  | _, _ => false

theorem Aligned.mismatches {V : Type} [DecidableEq V]
    (bneq : List Nat × List V → List Nat × List V → Except Err Bool)
    {a b : Dict V} (h : Aligned a b) :
    Validate.mismatches bneq (discretes (a.map (·.2))) (discretes (b.map (·.2))) =
      .ok ((a.zip b).countP fun p => bad2 p.1.2 p.2.2) := by
  induction h with
  | nil => rfl
  | cons k x y l l' hf _ ih =>
    cases hf with
    | flt s d d' hl => simpa [discretes, bad2] using ih
    | disc s d d' hl =>
      simp only [List.map_cons, discretes, Validate.mismatches, allDiffer, if_true, ih,
        all_zip_differ d d' hl, List.zip_cons_cons, List.countP_cons, bad2]
      rw [Nat.add_comm]

theorem Aligned.allclose {V : Type} (rtol atol : Rat) {a b : Dict V} (h : Aligned a b) :
    Validate.allclose (floats (b.map (·.2))) (floats (a.map (·.2))) rtol atol = true ↔
      ∀ p ∈ a.zip b, ∀ s d s' d', p.1.2 = Leaf.flt s d → p.2.2 = Leaf.flt s' d' →
        ∀ (n : Nat) x y, d[n]? = some x → d'[n]? = some y → Close atol rtol x y := by
  induction h with
  | nil => simp [floats, Validate.allclose]
  | cons k x y l l' hf _ ih =>
    cases hf with
    | flt s d d' hl =>
      simp only [List.map_cons, floats]
      rw [allclose_append _ _ _ _ _ _ hl.symm, Bool.and_eq_true, ih, allclose_iff _ _ d d' hl]
      simp only [List.zip_cons_cons, List.mem_cons]
      constructor
      · rintro ⟨h0, h1⟩ p (hp | hp)
        · subst hp
          intro s1 d1 s2 d2 e1 e2
          simp only [Leaf.flt.injEq] at e1 e2
          obtain ⟨_, e1⟩ := e1
          obtain ⟨_, e2⟩ := e2
          subst e1; subst e2
          exact h0
        · exact h1 p hp
      · intro h1
        exact ⟨h1 _ (.inl rfl) s d s d' rfl rfl, fun p hp => h1 p (.inr hp)⟩
    | disc s d d' hl =>
      simp only [List.map_cons, floats, ih, List.zip_cons_cons, List.mem_cons]
      constructor
      · rintro h1 p (hp | hp)
        · subst hp; intro s1 d1 s2 d2 e1; simp at e1
        · exact h1 p hp
      · intro h1 p hp; exact h1 p (.inr hp)

/-! ## Back to the names -/

theorem lookup_iff {V : Type} : ∀ (c : Dict V), (c.map (·.1)).Nodup → ∀ k y,
    (c.lookup k = some y ↔ (k, y) ∈ c) := by
  intro c
  induction c with
  | nil => intro _ k y; simp
  | cons p c ih =>
    intro hn k y
    obtain ⟨k', y'⟩ := p
    simp only [List.map_cons, List.nodup_cons] at hn
    by_cases hk : k = k'
    · subst hk
      simp only [List.lookup_cons, BEq.rfl, Option.some.injEq, List.mem_cons, Prod.mk.injEq,
        true_and]
      constructor
      · intro h; exact .inl h.symm
      · rintro (h | h)
        · exact h.symm
        · exact absurd ((mem_names c k).2 ⟨y, h⟩) hn.1
    · have hne : (k == k') = false := by simpa using hk
      simp only [List.lookup_cons, hne, ih hn.2 k y, List.mem_cons, Prod.mk.injEq]
      constructor
      · intro h; exact .inr h
      · rintro (h | h)
        · exact absurd h.1 hk
        · exact h

theorem Aligned.mem_zip {V : Type} {a b : Dict V} (h : Aligned a b) :
    (a.map (·.1)).Nodup → ∀ p : (String × Leaf V) × (String × Leaf V),
      (p ∈ a.zip b ↔ p.1 ∈ a ∧ p.2 ∈ b ∧ p.1.1 = p.2.1) := by
  induction h with
  | nil => intro _ p; simp
  | cons k x y l l' hf ht ih =>
    intro hn p
    simp only [List.map_cons, List.nodup_cons] at hn
    have hkeys : l'.map (·.1) = l.map (·.1) := by
      clear ih hn
      induction ht with
      | nil => rfl
      | cons k x y l l' hf _ ih => simp [ih]
    simp only [List.zip_cons_cons, List.mem_cons, ih hn.2 p]
    constructor
    · rintro (h | ⟨h1, h2, h3⟩)
      · subst h; simp
      · exact ⟨.inr h1, .inr h2, h3⟩
    · rintro ⟨h1 | h1, h2 | h2, h3⟩
      · left
        obtain ⟨p1, p2⟩ := p
        simp only at h1 h2
        subst h1; subst h2
        rfl
      · exfalso
        rw [h1] at h3
        simp only at h3
        have : p.2.1 ∈ l'.map (·.1) := List.mem_map.2 ⟨p.2, h2, rfl⟩
        rw [hkeys, ← h3] at this
        exact hn.1 this
      · exfalso
        rw [h2] at h3
        simp only at h3
        have : p.1.1 ∈ l.map (·.1) := List.mem_map.2 ⟨p.1, h1, rfl⟩
        rw [h3] at this
        exact hn.1 this
      · exact .inr ⟨h1, h2, h3⟩

theorem Aligned.count {V : Type} [DecidableEq V] (c : Dict V) {a b : Dict V}
    (h : Aligned a b) : (∀ k y, (k, y) ∈ b → c.lookup k = some y) →
    (a.zip b).countP (fun p => bad2 p.1.2 p.2.2) =
      a.countP fun p =>
        match p.2, c.lookup p.1 with
        | .disc _ d, some (.disc _ d') => differEverywhere d d'
        | _, _ => false := by
  induction h with
  | nil => intro _; rfl
  | cons k x y l l' hf ht ih =>
    intro hc
    have h0 := hc k y (List.mem_cons_self ..)
    have h1 := ih fun k y hm => hc k y (List.mem_cons_of_mem _ hm)
    simp only [List.zip_cons_cons, List.countP_cons, h1, h0]
    cases hf with
    | flt s d d' hl => simp [bad2]
    | disc s d d' hl => rfl

/-- What the report counts for one input. -/
theorem count_zip {V : Type} [DecidableEq V] {b c : Dict V} (h : Comparable b c) :
    ((flatten b).zip (flatten c)).countP (fun p => bad2 p.1.2 p.2.2) =
      count differEverywhere b c := by
  rw [(flatten_aligned h).count c, (flatten_perm b).countP_eq]
  · simp only [ValidateSpec.count, List.countP_eq_length_filter] <;> rfl
  · intro k y hy
    exact (lookup_iff c h.nodup' k y).2 ((flatten_perm c).mem_iff.1 hy)

theorem discretes_others {V : Type} (a : Dict V) :
    (discretes (a.map (·.2))).length = others a := by
  induction a with
  | nil => rfl
  | cons p a ih =>
    obtain ⟨k, x⟩ := p
    cases x <;> simp_all [discretes, others]

theorem others_perm {V : Type} {a b : Dict V} (h : a.Perm b) : others a = others b := by
  simp only [others, ← List.countP_eq_length_filter]
  exact h.countP_eq _

theorem count_le {V : Type} (bad : List V → List V → Bool) (b c : Dict V) :
    count bad b c ≤ others b := by
  simp only [ValidateSpec.count, others, ← List.countP_eq_length_filter]
  apply List.countP_mono_left
  intro p _
  obtain ⟨k, x⟩ := p
  cases x <;> simp

theorem floatsClose_iff {V : Type} (atol rtol : Rat) {b c : Dict V} (h : Comparable b c) :
    (∀ p ∈ (flatten b).zip (flatten c), ∀ s d s' d', p.1.2 = Leaf.flt s d →
        p.2.2 = Leaf.flt s' d' →
        ∀ (n : Nat) x y, d[n]? = some x → d'[n]? = some y → Close atol rtol x y) ↔
      FloatsClose atol rtol b c := by
  have hz := (flatten_aligned h).mem_zip (((flatten_perm b).map (·.1)).nodup_iff.2 h.nodup)
  constructor
  · intro hp k s d s' d' hb hc
    exact hp ((k, .flt s d), (k, .flt s' d'))
      ((hz _).2 ⟨(flatten_perm b).mem_iff.2 hb, (flatten_perm c).mem_iff.2 hc, rfl⟩)
      s d s' d' rfl rfl
  · intro hf p hp s d s' d' e1 e2
    obtain ⟨h1, h2, h3⟩ := (hz p).1 hp
    obtain ⟨⟨k, x⟩, ⟨k', y⟩⟩ := p
    simp only at e1 e2 h3
    subst e1; subst e2; subst h3
    exact hf k s d s' d' ((flatten_perm b).mem_iff.1 h1) ((flatten_perm c).mem_iff.1 h2)

/-! ## All inputs -/

section
variable {V I : Type} (B C : I → Dict V)

theorem leaves_eq (inputs : List I) :
    leaves (inputs.map B) = (inputs.flatMap fun i => flatten (B i)).map (·.2) := by
  induction inputs with
  | nil => rfl
  | cons i is ih => simp_all [leaves]

theorem all_aligned (inputs : List I) (h : ∀ i ∈ inputs, Comparable (B i) (C i)) :
    Aligned (inputs.flatMap fun i => flatten (B i)) (inputs.flatMap fun i => flatten (C i)) := by
  induction inputs with
  | nil => exact .nil
  | cons i is ih =>
    simp only [List.flatMap_cons]
    exact (flatten_aligned (h i (List.mem_cons_self ..))).append
      (ih fun j hj => h j (List.mem_cons_of_mem _ hj))

theorem all_treedef (inputs : List I) (h : ∀ i ∈ inputs, Comparable (B i) (C i)) :
    treedef (inputs.map B) = treedef (inputs.map C) := by
  simp only [treedef, List.map_map]
  apply List.map_congr_left
  intro i hi
  exact flatten_keys (h i hi)

theorem zip_flatMap (inputs : List I) (h : ∀ i ∈ inputs, Comparable (B i) (C i)) :
    (inputs.flatMap fun i => flatten (B i)).zip (inputs.flatMap fun i => flatten (C i)) =
      inputs.flatMap fun i => (flatten (B i)).zip (flatten (C i)) := by
  induction inputs with
  | nil => rfl
  | cons i is ih =>
    simp only [List.flatMap_cons]
    rw [List.zip_append (flatten_aligned (h i (List.mem_cons_self ..))).length,
      ih fun j hj => h j (List.mem_cons_of_mem _ hj)]

theorem all_count [DecidableEq V] (inputs : List I)
    (h : ∀ i ∈ inputs, Comparable (B i) (C i)) :
    (inputs.flatMap fun i => (flatten (B i)).zip (flatten (C i))).countP
        (fun p => bad2 p.1.2 p.2.2) =
      total (fun i => count differEverywhere (B i) (C i)) inputs := by
  induction inputs with
  | nil => rfl
  | cons i is ih =>
    have := ih fun j hj => h j (List.mem_cons_of_mem _ hj)
    simp only [List.flatMap_cons, List.countP_append, this, total, List.map_cons,
      List.sum_cons, count_zip (h i (List.mem_cons_self ..))]

theorem all_others (inputs : List I) :
    (discretes (leaves (inputs.map B))).length = total (fun i => others (B i)) inputs := by
  rw [leaves_eq]
  induction inputs with
  | nil => rfl
  | cons i is ih =>
    simp only [List.flatMap_cons, List.map_append, discretes_append, List.length_append, ih,
      total, List.map_cons, List.sum_cons, discretes_others, others_perm (flatten_perm (B i))]

theorem total_le (f g : I → Nat) (inputs : List I) (h : ∀ i, f i ≤ g i) :
    total f inputs ≤ total g inputs := by
  induction inputs with
  | nil => exact Nat.le_refl _
  | cons i is ih =>
    simp only [total, List.map_cons, List.sum_cons] at *
    exact Nat.add_le_add (h i) ih

theorem convertAll_dict (inputs : List I) :
    convertAll (inputs.map fun i => Result.dict (B i)) = .ok (inputs.map B) := by
  induction inputs with
  | nil => rfl
  | cons i is ih => simp [convertAll, convert, ih]

end

theorem ratio_iff (m n : Nat) (r : Rat) (hr : 0 ≤ r) (hm : m ≤ n) :
    ratio m n ≤ r ↔ (m : Rat) ≤ r * (n : Rat) := by
  unfold ratio
  by_cases h : 0 < n
  · have h' : (0 : Rat) < (n : Rat) := Rat.natCast_pos.2 h
    have hn : (n : Rat) ≠ 0 := by grind
    simp only [h, if_true]
    constructor
    · intro h1
      have := Rat.mul_le_mul_of_nonneg_right h1 (Rat.le_of_lt h')
      rw [Rat.div_mul_cancel hn] at this
      exact this
    · intro h1
      have := Rat.mul_le_mul_of_nonneg_right h1 (Rat.le_of_lt (Rat.inv_pos.2 h'))
      rw [Rat.mul_assoc, Rat.mul_inv_cancel _ hn] at this
      rw [Rat.div_def]; grind
  · have h0 : n = 0 := by omega
    have h1 : m = 0 := by omega
    subst h0; subst h1
    simp [hr]

/-! ## C96 -/

/-- C96 (as coded): when both models return flat dicts with the same names and
forms, the report says Pass exactly when every floating-point output is close
and few enough of the others differ, where "close" means within
`floating_rtol + floating_atol * |baseline|` and a tensor "differs" when it
differs at every position. -/
theorem C96_as_coded {V I : Type} [DecidableEq V]
    (bneq : List Nat × List V → List Nat × List V → Except Err Bool) (o : Option')
    (B C : I → Dict V) (inputs : List I) (hne : inputs ≠ []) (hr : 0 ≤ o.maxRatio)
    (h : ∀ i ∈ inputs, Comparable (B i) (C i)) :
    ∃ r, validate bneq o (fun i => .dict (B i)) (fun i => .dict (C i)) inputs = .ok r ∧
      (r.pass = true ↔
        ShouldPass o.rtol o.atol o.maxRatio differEverywhere B C inputs) := by
  have hal := all_aligned B C inputs h
  have hlen : (leaves (inputs.map B)).length = (leaves (inputs.map C)).length := by
    simp only [leaves_eq, List.length_map, hal.length]
  have hfl : (floats (leaves (inputs.map B))).length =
      (floats (leaves (inputs.map C))).length := by
    rw [leaves_eq, leaves_eq]; exact hal.floats_length
  have hdl : (discretes (leaves (inputs.map B))).length =
      (discretes (leaves (inputs.map C))).length := by
    rw [leaves_eq, leaves_eq]; exact hal.discretes_length
  have hmm : Validate.mismatches bneq (discretes (leaves (inputs.map B)))
      (discretes (leaves (inputs.map C))) =
      .ok (total (fun i => count differEverywhere (B i) (C i)) inputs) := by
    rw [leaves_eq, leaves_eq, hal.mismatches bneq, zip_flatMap B C inputs h,
      all_count B C inputs h]
  refine ⟨⟨allclose (floats (leaves (inputs.map C))) (floats (leaves (inputs.map B))) o.atol o.rtol &&
      decide (ratio (total (fun i => count differEverywhere (B i) (C i)) inputs)
        (discretes (leaves (inputs.map B))).length ≤ o.maxRatio),
      total (fun i => count differEverywhere (B i) (C i)) inputs,
      (discretes (leaves (inputs.map B))).length⟩, ?_, ?_⟩
  · simp only [validate, hne, if_false, convertAll_dict, hlen, report, all_treedef B C inputs h,
      hfl, hdl, ne_eq, not_true, hmm]
  · simp only [Bool.and_eq_true, decide_eq_true_eq, ShouldPass]
    rw [all_others, ratio_iff _ _ _ hr (total_le _ _ _ fun i => count_le _ _ _)]
    rw [leaves_eq, leaves_eq, hal.allclose, zip_flatMap B C inputs h]
    simp only [List.mem_flatMap]
    refine and_congr ?_ Iff.rfl
    constructor
    · intro hp i hi
      exact (floatsClose_iff _ _ (h i hi)).1 fun p hpz => hp p ⟨i, hi, hpz⟩
    · rintro hp p ⟨i, hi, hpz⟩
      exact (floatsClose_iff _ _ (h i hi)).2 (hp i hi) p hpz

theorem differEverywhere_one {V : Type} [DecidableEq V] (d d' : List V) (h : d.length = 1)
    (h' : d'.length = 1) : differEverywhere d d' = differ d d' := by
  obtain ⟨x, rfl⟩ := List.length_eq_one_iff.1 h
  obtain ⟨y, rfl⟩ := List.length_eq_one_iff.1 h'
  simp [differEverywhere, differ, List.range_succ]

theorem total_congr {I : Type} (f g : I → Nat) (inputs : List I)
    (h : ∀ i ∈ inputs, f i = g i) : total f inputs = total g inputs := by
  unfold total
  rw [List.map_congr_left h]

theorem count_one {V : Type} [DecidableEq V] {b c : Dict V} (h : Comparable b c)
    (hs : ∀ k s d, (k, Leaf.disc s d) ∈ b → d.length = 1) :
    count differEverywhere b c = count differ b c := by
  simp only [ValidateSpec.count, ← List.countP_eq_length_filter]
  apply List.countP_congr
  intro p hp
  obtain ⟨k, x⟩ := p
  cases x with
  | flt s d => simp
  | disc s d =>
    cases hl : c.lookup k with
    | none => simp
    | some y =>
      cases y with
      | flt s' d' => simp
      | disc s' d' =>
        have hy := (lookup_iff c h.nodup' k _).1 hl
        have h1 := hs k s d hp
        have h2 : d'.length = 1 := by
          have := h.form k _ _ hp hy
          cases this with
          | disc _ _ _ hl => omega
        simp [differEverywhere_one d d' h1 h2]

/-- C96: when both tolerances are the same (as they are by default) and the
outputs that are not floating-point have one element each, the report says Pass
exactly when it should: every floating-point output is within the tolerances,
and the part of the others that differ is at most the given ratio. -/
theorem C96_pass_iff_partial {V I : Type} [DecidableEq V]
    (bneq : List Nat × List V → List Nat × List V → Except Err Bool) (o : Option')
    (B C : I → Dict V) (inputs : List I) (hne : inputs ≠ []) (hr : 0 ≤ o.maxRatio)
    (ht : o.atol = o.rtol)
    (h : ∀ i ∈ inputs, Comparable (B i) (C i))
    (hs : ∀ i ∈ inputs, ∀ k s d, (k, Leaf.disc s d) ∈ B i → d.length = 1) :
    ∃ r, validate bneq o (fun i => .dict (B i)) (fun i => .dict (C i)) inputs = .ok r ∧
      (r.pass = true ↔ ShouldPass o.atol o.rtol o.maxRatio differ B C inputs) := by
  obtain ⟨r, h1, h2⟩ := C96_as_coded bneq o B C inputs hne hr h
  refine ⟨r, h1, h2.trans ?_⟩
  unfold ShouldPass
  rw [ht, total_congr _ _ inputs fun i hi => count_one (h i hi) (hs i hi)]

theorem comparable_self {V : Type} {b : Dict V} (h : (b.map (·.1)).Nodup) :
    Comparable b b := by
  refine ⟨h, h, fun _ => Iff.rfl, ?_⟩
  intro k x y hx hy
  have e : x = y := by
    have h1 := (lookup_iff b h k x).2 hx
    have h2 := (lookup_iff b h k y).2 hy
    rw [h1] at h2
    exact Option.some.inj h2
  subst e
  cases x with
  | flt s d => exact .flt s d d rfl
  | disc s d => exact .disc s d d rfl

theorem mag_nonneg (q : Rat) : 0 ≤ mag q := by
  unfold mag; split <;> grind

/-- C96: a model whose outputs are those of the JAX model passes, when they have
no NaN and no tensor of another type is empty. -/
theorem C96_identical {V I : Type} [DecidableEq V]
    (bneq : List Nat × List V → List Nat × List V → Except Err Bool) (o : Option')
    (B : I → Dict V) (inputs : List I) (hne : inputs ≠ []) (hr : 0 ≤ o.maxRatio)
    (ha : 0 ≤ o.atol) (hrt : 0 ≤ o.rtol)
    (h : ∀ i ∈ inputs, ((B i).map (·.1)).Nodup)
    (hnan : ∀ i ∈ inputs, ∀ k s d, (k, Leaf.flt s d) ∈ B i → Fl.nan ∉ d)
    (hs : ∀ i ∈ inputs, ∀ k s d, (k, Leaf.disc s d) ∈ B i → d ≠ []) :
    ∃ r, validate bneq o (fun i => .dict (B i)) (fun i => .dict (B i)) inputs = .ok r ∧
      r.pass = true := by
  obtain ⟨r, h1, h2⟩ := C96_as_coded bneq o B B inputs hne hr
    fun i hi => comparable_self (h i hi)
  refine ⟨r, h1, h2.2 ⟨?_, ?_⟩⟩
  · intro i hi k s d s' d' hb hc n x y hx hy
    have e : (Leaf.flt s d : Leaf V) = Leaf.flt s' d' := by
      have e1 := (lookup_iff (B i) (h i hi) k _).2 hb
      have e2 := (lookup_iff (B i) (h i hi) k _).2 hc
      rw [e1] at e2
      exact Option.some.inj e2
    simp only [Leaf.flt.injEq] at e
    rw [← e.2, hx] at hy
    simp only [Option.some.injEq] at hy
    subst hy
    cases x with
    | nan => exact absurd (List.mem_of_getElem? hx) (hnan i hi k s d hb)
    | inf b => exact .inf b
    | fin q =>
      refine .fin q q ?_
      have hm := mag_nonneg q
      have h3 : 0 ≤ o.atol * mag q := Rat.mul_nonneg ha hm
      have h4 : mag (q - q) = 0 := by
        have : q - q = 0 := by grind
        rw [this]; rfl
      rw [h4]; grind
  · have h0 : total (fun i => count differEverywhere (B i) (B i)) inputs = total (fun _ => 0) inputs := by
      refine total_congr _ _ inputs fun i hi => ?_
      simp only [ValidateSpec.count, List.length_eq_zero_iff, List.filter_eq_nil_iff]
      intro p hp
      obtain ⟨k, x⟩ := p
      cases x with
      | flt s d => simp
      | disc s d =>
        have hl := (lookup_iff (B i) (h i hi) k _).2 hp
        have hd := hs i hi k s d hp
        simp only [hl]
        cases d with
        | nil => exact absurd rfl hd
        | cons v vs => simp [differEverywhere, List.range_succ_eq_map]
    have h1 : total (fun _ : I => 0) inputs = 0 := by
      clear h0 h1 h2 hs hnan h hne
      induction inputs with
      | nil => rfl
      | cons i is ih => simpa [total] using ih
    rw [h0, h1]
    have : (0 : Rat) ≤ ((total (fun i => others (B i)) inputs : Nat) : Rat) :=
      Rat.natCast_nonneg
    simpa using Rat.mul_nonneg hr this

/-- One floating-point output. -/
def one {V : Type} (q : Rat) : Unit → Dict V := fun _ => [("o", .flt [1] [.fin q])]

theorem one_comparable {V : Type} (p q : Rat) :
    Comparable (one (V := V) p ()) (one (V := V) q ()) := by
  refine ⟨by simp [one], by simp [one], ?_, ?_⟩
  · intro k
    simp [one]
  · intro k x y hx hy
    simp only [one, List.mem_singleton, Prod.mk.injEq] at hx hy
    rw [hx.2, hy.2]
    exact .flt _ _ _ rfl

theorem one_close {V : Type} (a r p q : Rat) :
    FloatsClose a r (one (V := V) p ()) (one (V := V) q ()) ↔
      mag (q - p) ≤ a + r * mag p := by
  constructor
  · intro h
    have := h "o" [1] [.fin p] [1] [.fin q] (by simp [one]) (by simp [one]) 0 (.fin p) (.fin q)
      (by simp) (by simp)
    cases this with
    | fin _ _ h => exact h
  · intro h k s d s' d' hb hc n x y hx hy
    simp only [one, List.mem_singleton, Prod.mk.injEq, Leaf.flt.injEq] at hb hc
    rw [hb.2.2] at hx
    rw [hc.2.2] at hy
    cases n with
    | zero =>
      simp only [List.getElem?_cons_zero, Option.some.injEq] at hx hy
      subst hx; subst hy
      exact .fin p q h
    | succ n => simp at hx

/-- C96 (finding): the two tolerances are exchanged.  Whenever they are
different there are outputs for which the report says Pass although they are
not within the tolerances, or Fail although they are. -/
theorem C96_tolerance_fails {V : Type} [DecidableEq V]
    (bneq : List Nat × List V → List Nat × List V → Except Err Bool) (o : Option')
    (hr : 0 ≤ o.maxRatio) (ha : 0 ≤ o.atol) (hrt : 0 ≤ o.rtol) (hne : o.atol ≠ o.rtol) :
    ∃ (q : Rat) (r : Report),
      validate (V := V) bneq o (fun i => .dict (one 0 i)) (fun i => .dict (one q i)) [()] =
        .ok r ∧
      ¬ (r.pass = true ↔ ShouldPass o.atol o.rtol o.maxRatio differ (one (V := V) 0) (one q) [()]) := by
  have key : ∀ q, ∃ r : Report,
      validate (V := V) bneq o (fun i => .dict (one 0 i)) (fun i => .dict (one q i)) [()] =
        .ok r ∧
      (r.pass = true ↔ mag (q - 0) ≤ o.rtol + o.atol * mag 0) ∧
      (ShouldPass o.atol o.rtol o.maxRatio differ (one (V := V) 0) (one q) [()] ↔
        mag (q - 0) ≤ o.atol + o.rtol * mag 0) := by
    intro q
    obtain ⟨r, h1, h2⟩ := C96_as_coded (V := V) bneq o (one 0) (one q) [()] (by simp) hr
      fun i _ => one_comparable 0 q
    have hc : ∀ bad : List V → List V → Bool,
        total (fun i => count bad (one (V := V) 0 i) (one q i)) [()] = 0 := by
      intro bad
      simp [total, ValidateSpec.count, one]
    have ho : total (fun i => others (one (V := V) 0 i)) [()] = 0 := by
      simp [total, others, one]
    refine ⟨r, h1, ?_, ?_⟩
    · rw [h2]
      simp only [ShouldPass, List.mem_singleton, hc, ho]
      constructor
      · intro h
        exact (one_close _ _ _ _).1 (h.1 () trivial)
      · intro h
        refine ⟨fun i _ => (one_close _ _ _ _).2 h, by simp⟩
    · simp only [ShouldPass, List.mem_singleton, hc, ho]
      constructor
      · intro h
        exact (one_close _ _ _ _).1 (h.1 () trivial)
      · intro h
        refine ⟨fun i _ => (one_close _ _ _ _).2 h, by simp⟩
  have hm : ∀ q : Rat, 0 ≤ q → mag (q - 0) = q := by
    intro q hq; unfold mag; split <;> grind
  have h0 : mag 0 = 0 := rfl
  rcases (by grind : o.atol < o.rtol ∨ o.rtol < o.atol) with h | h
  · obtain ⟨r, h1, h2, h3⟩ := key o.rtol
    refine ⟨o.rtol, r, h1, ?_⟩
    rw [h2, h3, hm _ hrt, h0]
    grind
  · obtain ⟨r, h1, h2, h3⟩ := key o.atol
    refine ⟨o.atol, r, h1, ?_⟩
    rw [h2, h3, hm _ ha, h0]
    grind

/-- One output that is not floating-point. -/
def disc1 {V : Type} (d : List V) : Unit → Dict V := fun _ => [("o", .disc [d.length] d)]

theorem disc1_comparable {V : Type} (d d' : List V) (h : d.length = d'.length) :
    Comparable (disc1 d ()) (disc1 d' ()) := by
  refine ⟨by simp [disc1], by simp [disc1], ?_, ?_⟩
  · intro k
    simp [disc1]
  · intro k x y hx hy
    simp only [disc1, List.mem_singleton, Prod.mk.injEq] at hx hy
    rw [hx.2, hy.2, h]
    exact .disc _ _ _ h

theorem disc1_pass {V : Type} [DecidableEq V]
    (bneq : List Nat × List V → List Nat × List V → Except Err Bool) (o : Option')
    (hr : 0 ≤ o.maxRatio) (hr1 : o.maxRatio < 1) (d d' : List V) (h : d.length = d'.length) :
    ∃ r, validate bneq o (fun i => .dict (disc1 d i)) (fun i => .dict (disc1 d' i)) [()] = .ok r ∧
      (r.pass = true ↔ differEverywhere d d' = false) ∧
      (ShouldPass o.atol o.rtol o.maxRatio differ (disc1 d) (disc1 d') [()] ↔ d = d') := by
  obtain ⟨r, h1, h2⟩ := C96_as_coded bneq o (disc1 d) (disc1 d') [()] (by simp) hr
    fun i _ => disc1_comparable d d' h
  have hc : ∀ bad : List V → List V → Bool,
      total (fun i => count bad (disc1 d i) (disc1 d' i)) [()] = if bad d d' then 1 else 0 := by
    intro bad
    simp only [total, ValidateSpec.count, disc1, List.map_cons, List.map_nil, List.sum_cons,
      List.sum_nil, List.lookup_cons, BEq.rfl, List.filter_cons, List.filter_nil]
    split <;> rfl
  have ho : total (fun i => others (disc1 d i)) [()] = 1 := by
    simp [total, others, disc1]
  have hf : ∀ a r, FloatsClose a r (disc1 d ()) (disc1 d' ()) := by
    intro a r k s d s' d' hb
    simp [disc1] at hb
  have hp : ∀ a r (bad : List V → List V → Bool),
      ShouldPass a r o.maxRatio bad (disc1 d) (disc1 d') [()] ↔ bad d d' = false := by
    intro a r bad
    simp only [ShouldPass, hc, ho]
    cases bad d d' with
    | false =>
      simp only [iff_true]
      exact ⟨fun i _ => hf a r, by simpa using hr⟩
    | true =>
      simp only [if_true]
      constructor
      · intro hh
        have h3 : ((1 : Nat) : Rat) = 1 := rfl
        rw [h3] at hh
        exfalso; grind
      · intro hh; simp at hh
  refine ⟨r, h1, ?_, ?_⟩
  · rw [h2, hp]
  · rw [hp]; simp [differ]

/-- C96 (finding): an output that is not floating-point counts as different only
when it differs at every position: if one element agrees, the report says Pass
whatever the others are. -/
theorem C96_elements_fails {V : Type} [DecidableEq V]
    (bneq : List Nat × List V → List Nat × List V → Except Err Bool) (o : Option')
    (hr : 0 ≤ o.maxRatio) (hr1 : o.maxRatio < 1) (d d' : List V) (h : d.length = d'.length)
    (n : Nat) (hn : n < d.length) (he : d[n]? = d'[n]?) (hd : d ≠ d') :
    ∃ r, validate bneq o (fun i => .dict (disc1 d i)) (fun i => .dict (disc1 d' i)) [()] = .ok r ∧
      r.pass = true ∧
      ¬ ShouldPass o.atol o.rtol o.maxRatio differ (disc1 d) (disc1 d') [()] := by
  obtain ⟨r, h1, h2, h3⟩ := disc1_pass bneq o hr hr1 d d' h
  refine ⟨r, h1, h2.2 ?_, fun hh => hd (h3.1 hh)⟩
  simp only [differEverywhere, List.all_eq_false, List.mem_range]
  exact ⟨n, hn, by simp [he]⟩

/-- C96 (finding): an output that is not floating-point and has no elements
counts as different from itself: two models with the same outputs do not pass. -/
theorem C96_empty_fails {V : Type} [DecidableEq V]
    (bneq : List Nat × List V → List Nat × List V → Except Err Bool) (o : Option')
    (hr : 0 ≤ o.maxRatio) (hr1 : o.maxRatio < 1) :
    ∃ r, validate (V := V) bneq o (fun i => .dict (disc1 [] i)) (fun i => .dict (disc1 [] i)) [()] =
        .ok r ∧ r.pass = false := by
  obtain ⟨r, h1, h2, _⟩ := disc1_pass (V := V) bneq o hr hr1 [] [] rfl
  refine ⟨r, h1, ?_⟩
  cases hp : r.pass with
  | false => rfl
  | true => exact absurd (h2.1 hp) (by simp [differEverywhere])

/-- C96: the outputs of a function that returns a sequence are compared under the names `output_0`, `output_1` and so on, in order. -/
theorem C96_names {V : Type} (xs : List (Leaf V)) :
    ∃ d, convert (.seq xs) = .ok d ∧ d.map (·.2) = xs ∧
      ∀ i, i < xs.length → (d[i]?).map (·.1) = some ("output_" ++ toString i) := by
  have main : ∀ (xs : List (Leaf V)) (n : Nat), (number n xs).map (·.2) = xs ∧
      ∀ i, i < xs.length → ((number n xs)[i]?).map (·.1) = some ("output_" ++ toString (n + i)) := by
    intro xs
    induction xs with
    | nil => intro n; exact ⟨rfl, fun i hi => absurd hi (Nat.not_lt_zero i)⟩
    | cons x xs ih =>
      intro n
      obtain ⟨h1, h2⟩ := ih (n + 1)
      refine ⟨by simp only [number, List.map_cons, h1], fun i hi => ?_⟩
      cases i with
      | zero => simp [number, name]
      | succ i =>
        simp only [number, List.getElem?_cons_succ]
        rw [h2 i (by simpa using hi), show n + 1 + i = n + (i + 1) by omega]
  obtain ⟨h1, h2⟩ := main xs 0
  exact ⟨_, rfl, h1, fun i hi => by simpa using h2 i hi⟩

/-- C96 (finding): outputs with a NaN are never close, not even to themselves. -/
theorem C96_nan_fails {V I : Type} [DecidableEq V]
    (bneq : List Nat × List V → List Nat × List V → Except Err Bool) (o : Option')
    (B : I → Dict V) (inputs : List I) (hr : 0 ≤ o.maxRatio)
    (h : ∀ i ∈ inputs, ((B i).map (·.1)).Nodup)
    (i : I) (hi : i ∈ inputs) (k : String) (s : List Nat) (d : List Fl)
    (hk : (k, Leaf.flt s d) ∈ B i) (hd : Fl.nan ∈ d) :
    ∃ r, validate bneq o (fun i => .dict (B i)) (fun i => .dict (B i)) inputs = .ok r ∧
      r.pass = false := by
  have hne : inputs ≠ [] := by
    intro e; rw [e] at hi; simp at hi
  obtain ⟨r, h1, h2⟩ := C96_as_coded bneq o B B inputs hne hr
    fun i hi => comparable_self (h i hi)
  refine ⟨r, h1, ?_⟩
  cases hp : r.pass with
  | false => rfl
  | true =>
    obtain ⟨n, hn⟩ := List.mem_iff_getElem?.1 hd
    have := (h2.1 hp).1 i hi k s d s d hk hk n _ _ hn hn
    cases this

/-- C96 (finding): the shapes of floating-point outputs are not compared: an
output of another shape with the same elements passes. -/
theorem C96_shape_fails {V : Type} [DecidableEq V]
    (bneq : List Nat × List V → List Nat × List V → Except Err Bool) (o : Option')
    (hr : 0 ≤ o.maxRatio) (ha : 0 ≤ o.atol) (hrt : 0 ≤ o.rtol) (s s' : List Nat) (q : List Rat) :
    ∃ r, validate (V := V) (I := Unit) bneq o (fun _ => .dict [("o", .flt s (q.map .fin))])
        (fun _ => .dict [("o", .flt s' (q.map .fin))]) [()] = .ok r ∧ r.pass = true := by
  have hcl : allclose (q.map .fin) (q.map .fin) o.atol o.rtol = true := by
    induction q with
    | nil => rfl
    | cons x xs ih =>
      simp only [List.map_cons, allclose, ih, Bool.and_true, isclose, decide_eq_true_eq]
      have h1 : 0 ≤ absq x := by unfold absq; split <;> grind
      have h2 : absq (x - x) = 0 := by
        have : x - x = 0 := by grind
        rw [this]; rfl
      have h3 : 0 ≤ o.atol * absq x := Rat.mul_nonneg ha h1
      rw [h2]; grind
  have h0 : ∀ s, leaves (V := V) [[("o", .flt s (q.map .fin))]] = [.flt s (q.map .fin)] := by
    intro s; rfl
  refine ⟨⟨true, 0, 0⟩, ?_, rfl⟩
  simp only [validate, List.map_cons, List.map_nil, convertAll, convert, h0, List.length_cons,
    List.length_nil, report, floats, discretes, Validate.mismatches, List.append_nil]
  simp [treedef, flatten, insertKey, hcl, ratio, hr]

/-- C96 (finding): a JAX function that returns one array cannot be validated
unless the array has one row: its rows are taken for its outputs. -/
theorem C96_array_fails {V : Type} [DecidableEq V]
    (bneq : List Nat × List V → List Nat × List V → Except Err Bool) (o : Option')
    (n : Nat) (s : List Nat) (d : List Fl) (hn : n ≠ 1) :
    validate (V := V) (I := Unit) bneq o (fun _ => .array (.flt (n :: s) d))
      (fun _ => .dict [("output_0", .flt (n :: s) d)]) [()] = .error .length := by
  have hlen : ∀ (l : List (Leaf V)) (i : Nat), (number i l).length = l.length := by
    intro l
    induction l with
    | nil => intro i; rfl
    | cons x xs ih => intro i; simp [number, ih]
  have hfl : ∀ d : Dict V, (flatten d).length = d.length := fun d => (flatten_perm d).length_eq
  simp only [validate, List.map_cons, List.map_nil, convertAll, convert, rows, leaves,
    List.flatMap_cons, List.flatMap_nil, List.append_nil, List.length_map, hfl, hlen,
    List.length_range, List.length_cons, List.length_nil]
  simp [hn]

/-- The hypotheses of `C96_pass_iff_partial` are met by two inputs with a
floating-point output that is close and a label that differs for one of them. -/
theorem C96_nonvacuous :
    let B : Bool → Dict Nat := fun _ => [("score", .flt [2] [.fin 1, .fin 2]), ("label", .disc [] [7])]
    let C : Bool → Dict Nat := fun i =>
      [("label", .disc [] [if i then 7 else 8]), ("score", .flt [2] [.fin 1, .fin 2])]
    (∀ i ∈ [true, false], Comparable (B i) (C i)) ∧
    (∀ i ∈ [true, false], ∀ k s d, (k, Leaf.disc s d) ∈ B i → d.length = 1) ∧
    (∀ i ∈ [true, false], Comparable (B i) (B i)) ∧
    ShouldPass 0 0 (1/2) differ B C [true, false] ∧
    ¬ ShouldPass 0 0 (1/4) differ B C [true, false] := by
  intro B C
  have hc : ∀ i, Comparable (B i) (C i) := by
    intro i
    refine ⟨by simp [B], by simp [C], ?_, ?_⟩
    · intro k
      simp only [B, C, List.mem_cons, Prod.mk.injEq, List.not_mem_nil, or_false]
      constructor
      · rintro ⟨x, h | h⟩
        · exact ⟨_, .inr ⟨h.1, rfl⟩⟩
        · exact ⟨_, .inl ⟨h.1, rfl⟩⟩
      · rintro ⟨x, h | h⟩
        · exact ⟨_, .inr ⟨h.1, rfl⟩⟩
        · exact ⟨_, .inl ⟨h.1, rfl⟩⟩
    · intro k x y hx hy
      simp only [B, C, List.mem_cons, Prod.mk.injEq, List.not_mem_nil, or_false] at hx hy
      rcases hx with ⟨h1, h2⟩ | ⟨h1, h2⟩ <;> rcases hy with ⟨h3, h4⟩ | ⟨h3, h4⟩
      · rw [h1] at h3; simp at h3
      · rw [h2, h4]; exact .flt _ _ _ rfl
      · rw [h2, h4]; exact .disc _ _ _ rfl
      · rw [h1] at h3; simp at h3
  have ht : total (fun i => count differ (B i) (C i)) [true, false] = 1 := by decide
  have ho : total (fun i => others (B i)) [true, false] = 2 := by decide
  refine ⟨fun i _ => hc i, ?_, fun i _ => comparable_self (hc i).nodup, ?_, ?_⟩
  · intro i _ k s d h
    simp only [B, List.mem_cons, Prod.mk.injEq, List.not_mem_nil, or_false] at h
    rcases h with h | h
    · simp at h
    · simp only [Leaf.disc.injEq] at h
      rw [h.2.2]; rfl
  · refine ⟨?_, ?_⟩
    · intro i _ k s d s' d' hb hcm n x y hx hy
      simp only [B, C, List.mem_cons, Prod.mk.injEq, List.not_mem_nil, or_false] at hb hcm
      rcases hb with ⟨h1, h2⟩ | ⟨h1, h2⟩
      · rcases hcm with ⟨h3, h4⟩ | ⟨h3, h4⟩
        · simp at h4
        · simp only [Leaf.flt.injEq] at h2 h4
          rw [h2.2] at hx
          rw [h4.2, hx] at hy
          simp only [Option.some.injEq] at hy
          subst hy
          rcases n with _ | _ | n
          · simp only [List.getElem?_cons_zero, Option.some.injEq] at hx
            subst hx; refine .fin _ _ ?_; unfold mag; grind
          · simp only [List.getElem?_cons_succ, List.getElem?_cons_zero, Option.some.injEq] at hx
            subst hx; refine .fin _ _ ?_; unfold mag; grind
          · simp at hx
      · simp at h2
    · rw [ht, ho]
      have : ((1 : Nat) : Rat) = 1 := rfl
      have h2 : ((2 : Nat) : Rat) = 2 := rfl
      rw [this, h2]; grind
  · intro h
    have := h.2
    rw [ht, ho] at this
    have h1 : ((1 : Nat) : Rat) = 1 := rfl
    have h2 : ((2 : Nat) : Rat) = 2 := rfl
    rw [h1, h2] at this
    grind

end Verif.Export.ValidateProps
