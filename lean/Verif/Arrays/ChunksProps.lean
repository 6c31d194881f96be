import Verif.Arrays.FragmentsProps

/-!
# Properties of chunking fragments (C34)

Specification.  `Chunkable idx target`: the index is forward with steps 1, the target shape has the same rank
and every one of its dimensions is positive and divides the length of the index along that axis.
-/

namespace Verif.Arrays

open Slices

/-- The target shape divides the index, axis by axis. -/
def Chunkable : List Tri → List Nat → Prop
  | [], [] => True
  | t :: ts, d :: target => (t.start ≤ t.stop ∧ t.step = 1 ∧ 0 < d ∧ (d : Int) ∣ t.stop - t.start) ∧ Chunkable ts target
  | _, _ => False

/-- The index is forward with steps 1. -/
def Forward (idx : List Tri) : Prop := ∀ t ∈ idx, t.start ≤ t.stop ∧ t.step = 1

/-! ### Lemmas -/

/-- `s` has one element of each list. -/
def Choice {α} : List α → List (List α) → Prop
  | [], [] => True
  | x :: s, l :: ls => x ∈ l ∧ Choice s ls
  | _, _ => False

theorem mem_product {α : Type} : ∀ (ls : List (List α)) (s : List α), s ∈ product ls ↔ Choice s ls
  | [], [] => by simp [product, Choice]
  | [], _ :: _ => by simp [product, Choice]
  | l :: ls, [] => by simp [product, Choice]
  | l :: ls, x :: s => by
    have ih := mem_product ls s
    simp only [product, List.mem_flatMap, List.mem_map, Choice, ← ih]
    constructor
    · rintro ⟨a, ha, b, hb, e⟩
      cases e
      exact ⟨ha, hb⟩
    · rintro ⟨h1, h2⟩
      exact ⟨x, h1, s, h2, rfl⟩

theorem nodup_product {α : Type} : ∀ (ls : List (List α)), (∀ l ∈ ls, l.Nodup) → (product ls).Nodup
  | [], _ => by simp [product]
  | l :: ls, h => by
    have ih := nodup_product ls (fun l hl => h l (by simp [hl]))
    have hl := h l (by simp)
    simp only [product]
    induction l with
    | nil => simp
    | cons x l ihl =>
      rw [List.flatMap_cons, List.nodup_append]
      refine ⟨?_, ihl (fun l' hl' => ?_) (List.nodup_cons.mp hl).2, ?_⟩
      · exact List.Pairwise.map _ (fun a b hab e => hab (by cases e; rfl)) ih
      · rcases List.mem_cons.mp hl' with rfl | hl'
        · exact (List.nodup_cons.mp hl).2
        · exact h l' (by simp [hl'])
      · intro a ha b hb
        simp only [List.mem_map, List.mem_flatMap] at ha hb
        obtain ⟨s, -, rfl⟩ := ha
        obtain ⟨y, hy, s', -, rfl⟩ := hb
        intro e
        cases e
        exact (List.nodup_cons.mp hl).1 hy

theorem nodup_pyRange {a b c : Int} (hc : 0 < c) : (pyRange a b c).Nodup := by
  unfold pyRange
  refine List.Pairwise.map _ ?_ List.nodup_range
  intro x y hxy e
  apply hxy
  have : c * (x : Int) = c * y := by omega
  have := Int.eq_of_mul_eq_mul_left (by omega) this
  omega

theorem mem_pyRange {a b c x : Int} (hc : 0 < c) : x ∈ pyRange a b c ↔ ∃ k : Nat, x = a + c * k ∧ x < b := by
  unfold pyRange
  simp only [List.mem_map, List.mem_range]
  constructor
  · rintro ⟨k, hk, rfl⟩
    exact ⟨k, rfl, (lt_rangeLen hc (by omega)).mp (by exact_mod_cast hk)⟩
  · rintro ⟨k, rfl, hx⟩
    exact ⟨k, by exact_mod_cast (lt_rangeLen hc (by omega)).mpr hx, rfl⟩

def starts (idx : List Tri) (target : List Nat) : List (List Int) :=
  List.zipWith (fun t (d : Nat) => pyRange t.start t.stop d) idx target

/-- A chunk lies within the index. -/
theorem chunk_sub : ∀ {idx : List Tri} {target : List Nat} {s : List Int}, Chunkable idx target →
    Choice s (starts idx target) → ∀ i, Mem i (chunkIndex s target) → Mem i idx
  | [], [], [], _, _, i, h => h
  | [], [], _ :: _, _, h, _, _ => by simp [starts, Choice] at h
  | [], _ :: _, _, h, _, _, _ => by simp [Chunkable] at h
  | _ :: _, [], _, h, _, _, _ => by simp [Chunkable] at h
  | _ :: _, _ :: _, [], _, h, _, _ => by simp [starts, Choice] at h
  | t :: ts, d :: target, x :: s, hc, hs, [], h => by simp [chunkIndex, Mem] at h
  | t :: ts, d :: target, x :: s, hc, hs, y :: i, h => by
    obtain ⟨⟨h1, h2, h3, m, h4⟩, hc'⟩ := hc
    obtain ⟨hx, hs'⟩ := hs
    obtain ⟨⟨a1, a2, -⟩, h'⟩ := h
    simp only at a1 a2
    refine ⟨⟨?_, ?_, y - t.start, by rw [h2]; ring⟩, chunk_sub hc' hs' i h'⟩
    all_goals
      obtain ⟨k, rfl, hk⟩ := (mem_pyRange (by omega)).mp hx
      have : 0 ≤ (d : Int) * k := mul_nonneg (by omega) (by omega)
    · omega
    · have hkm : (k : Int) + 1 ≤ m := by
        by_contra hcon
        have : (d : Int) * m ≤ d * k := mul_le_mul_of_nonneg_left (by omega) (by omega)
        omega
      have : (d : Int) * (k + 1) ≤ d * m := mul_le_mul_of_nonneg_left hkm (by omega)
      have e : (d : Int) * (k + 1) = d * k + d := by ring
      omega

theorem chunk_cover : ∀ {idx : List Tri} {target : List Nat}, Chunkable idx target → ∀ i, Mem i idx →
    ∃ s, Choice s (starts idx target) ∧ Mem i (chunkIndex s target)
  | [], [], _, i, h => ⟨[], trivial, h⟩
  | [], _ :: _, h, _, _ => by simp [Chunkable] at h
  | _ :: _, [], h, _, _ => by simp [Chunkable] at h
  | t :: ts, d :: target, hc, [], h => by simp [Mem] at h
  | t :: ts, d :: target, hc, y :: i, h => by
    obtain ⟨⟨h1, h2, h3, m, h4⟩, hc'⟩ := hc
    obtain ⟨⟨a1, a2, -⟩, h'⟩ := h
    obtain ⟨s, hs, hm⟩ := chunk_cover hc' i h'
    have hq : 0 ≤ (y - t.start) / d := Int.ediv_nonneg (by omega) (by omega)
    have he := Int.mul_ediv_add_emod (y - t.start) d
    have hr := Int.emod_nonneg (y - t.start) (by omega : (d : Int) ≠ 0)
    have hr' := Int.emod_lt_of_pos (y - t.start) (by omega : (0 : Int) < d)
    refine ⟨(t.start + d * ((y - t.start) / d)) :: s, ⟨?_, hs⟩, ⟨⟨?_, ?_, ?_⟩, hm⟩⟩
    · refine (mem_pyRange (by omega)).mpr ⟨((y - t.start) / d).toNat, ?_, by omega⟩
      rw [Int.toNat_of_nonneg hq]
    · show t.start + d * ((y - t.start) / d) ≤ y; omega
    · show y < t.start + d * ((y - t.start) / d) + d; omega
    · exact ⟨y - (t.start + d * ((y - t.start) / d)), by simp⟩

theorem chunk_disjoint : ∀ {idx : List Tri} {target : List Nat} {s s' : List Int}, Chunkable idx target →
    Choice s (starts idx target) → Choice s' (starts idx target) → ∀ i, Mem i (chunkIndex s target) →
    Mem i (chunkIndex s' target) → s = s'
  | [], [], [], [], _, _, _, _, _, _ => rfl
  | [], [], _ :: _, _, _, h, _, _, _, _ => by simp [starts, Choice] at h
  | [], [], _, _ :: _, _, _, h, _, _, _ => by simp [starts, Choice] at h
  | [], _ :: _, _, _, h, _, _, _, _, _ => by simp [Chunkable] at h
  | _ :: _, [], _, _, h, _, _, _, _, _ => by simp [Chunkable] at h
  | _ :: _, _ :: _, [], _, _, h, _, _, _, _ => by simp [starts, Choice] at h
  | _ :: _, _ :: _, _, [], _, _, h, _, _, _ => by simp [starts, Choice] at h
  | t :: ts, d :: target, x :: s, x' :: s', hc, hs, hs', [], h, _ => by simp [chunkIndex, Mem] at h
  | t :: ts, d :: target, x :: s, x' :: s', hc, hs, hs', y :: i, h, h' => by
    obtain ⟨⟨h1, h2, h3, -⟩, hc'⟩ := hc
    obtain ⟨⟨a1, a2, -⟩, hm⟩ := h
    obtain ⟨⟨b1, b2, -⟩, hm'⟩ := h'
    simp only at a1 a2 b1 b2
    rw [chunk_disjoint hc' hs.2 hs'.2 i hm hm']
    congr 1
    obtain ⟨k, rfl, -⟩ := (mem_pyRange (by omega)).mp hs.1
    obtain ⟨k', rfl, -⟩ := (mem_pyRange (by omega)).mp hs'.1
    have : k = k' := by
      by_contra hne
      rcases lt_or_gt_of_ne hne with hlt | hlt
      · have : (d : Int) * (k + 1) ≤ d * k' := mul_le_mul_of_nonneg_left (by omega) (by omega)
        have e : (d : Int) * (k + 1) = d * k + d := by ring
        omega
      · have : (d : Int) * (k' + 1) ≤ d * k := mul_le_mul_of_nonneg_left (by omega) (by omega)
        have e : (d : Int) * (k' + 1) = d * k' + d := by ring
        omega
    rw [this]

theorem chunk_facts : ∀ {idx : List Tri} {target : List Nat} {s : List Int}, Chunkable idx target →
    Choice s (starts idx target) →
    (chunkIndex s target).length = idx.length ∧ Unit1 (chunkIndex s target) ∧ Mem s (chunkIndex s target) ∧
    (chunkIndex s target).map (fun t => sliceLen t.start t.stop t.step) = target.map Int.ofNat
  | [], [], [], _, _ => ⟨rfl, by simp [chunkIndex, Unit1], trivial, rfl⟩
  | [], [], _ :: _, _, h => by simp [starts, Choice] at h
  | [], _ :: _, _, h, _ => by simp [Chunkable] at h
  | _ :: _, [], _, h, _ => by simp [Chunkable] at h
  | _ :: _, _ :: _, [], _, h => by simp [starts, Choice] at h
  | t :: ts, d :: target, x :: s, hc, hs => by
    obtain ⟨⟨h1, h2, h3, -⟩, hc'⟩ := hc
    obtain ⟨i1, i2, i3, i4⟩ := chunk_facts hc' hs.2
    have e : chunkIndex (x :: s) (d :: target) = ⟨x, x + d, 1⟩ :: chunkIndex s target := rfl
    rw [e]
    refine ⟨by simp [i1], ?_, ?_, ?_⟩
    · intro u hu
      rcases List.mem_cons.mp hu with rfl | hu
      · rfl
      · exact i2 u hu
    · exact ⟨⟨le_refl _, by show x < x + (d : Int); omega, 0, by simp⟩, i3⟩
    · simp only [List.map_cons, i4]
      simp [sliceLen]

theorem chunkable_facts : ∀ {idx : List Tri} {target : List Nat}, Chunkable idx target →
    target.length = idx.length ∧ target.any (· == 0) = false ∧
    divisibleShapes (idx.map fun t => sliceLen t.start t.stop t.step) target = true ∧
    (∀ l ∈ starts idx target, l.Nodup) ∧ Forward idx
  | [], [], _ => ⟨rfl, rfl, rfl, by simp [starts], by simp [Forward]⟩
  | [], _ :: _, h => by simp [Chunkable] at h
  | _ :: _, [], h => by simp [Chunkable] at h
  | t :: ts, d :: target, hc => by
    obtain ⟨⟨h1, h2, h3, h4⟩, hc'⟩ := hc
    obtain ⟨i1, i2, i3, i4, i5⟩ := chunkable_facts hc'
    refine ⟨by simp [i1], ?_, ?_, ?_, ?_⟩
    · simp only [List.any_cons, i2, Bool.or_false, beq_eq_false_iff_ne]; omega
    · simp only [divisibleShapes, Bool.and_eq_true, beq_iff_eq] at i3 ⊢
      refine ⟨by simp [i1], ?_⟩
      simp only [List.map_cons, List.zipWith_cons_cons, List.all_cons, i3.2, Bool.and_true, id_eq, decide_eq_true_eq]
      right
      rw [h2]
      have : sliceLen t.start t.stop 1 = t.stop - t.start := by simp [sliceLen]
      rw [this]
      exact Int.emod_eq_zero_of_dvd h4
    · intro l hl
      simp only [starts, List.zipWith_cons_cons, List.mem_cons] at hl
      rcases hl with rfl | hl
      · exact nodup_pyRange (by omega)
      · exact i4 l hl
    · intro u hu
      rcases List.mem_cons.mp hu with rfl | hu
      · exact ⟨h1, h2⟩
      · exact i5 u hu

theorem chunk_ok {β} {f : Frag β} {target : List Nat} (hc : Chunkable f.index target)
    (hne : f.shape ≠ target.map Int.ofNat) :
    chunkFragment f target = (product (starts f.index target)).mapM fun s =>
      (chunkValue f (chunkIndex s target)).map fun v => { index := chunkIndex s target, value := v } := by
  obtain ⟨h1, h2, h3, -, -⟩ := chunkable_facts hc
  have hl : f.shape.length = f.index.length := by simp [Frag.shape]
  have h3' : divisibleShapes f.shape target = true := h3
  unfold chunkFragment
  rw [if_neg hne, if_neg (by rw [h1, hl]; simp), if_neg (by simp [h3']), if_neg (by simp [h2])]
  simp only [starts]
  congr 1
  funext s
  cases chunkValue f (chunkIndex s target) <;> rfl

theorem mapM_some' {α γ : Type} {g : α → Option γ} : ∀ (l : List α), (∀ a ∈ l, ∃ b, g a = some b) →
    ∃ l', l.mapM g = some l' ∧ (∀ b ∈ l', ∃ a ∈ l, g a = some b) ∧ (∀ a ∈ l, ∃ b ∈ l', g a = some b)
  | [], _ => ⟨[], rfl, by simp, by simp⟩
  | a :: l, h => by
    obtain ⟨b, hb⟩ := h a (by simp)
    obtain ⟨l', e, h1, h2⟩ := mapM_some' l (fun a ha => h a (by simp [ha]))
    refine ⟨b :: l', by rw [List.mapM_cons, hb, e]; rfl, ?_, ?_⟩
    · intro c hc
      rcases List.mem_cons.mp hc with rfl | hc
      · exact ⟨a, by simp, hb⟩
      · obtain ⟨a', ha', e'⟩ := h1 c hc
        exact ⟨a', by simp [ha'], e'⟩
    · intro c hc
      rcases List.mem_cons.mp hc with rfl | hc
      · exact ⟨b, by simp, hb⟩
      · obtain ⟨b', hb', e'⟩ := h2 c hc
        exact ⟨b', by simp [hb'], e'⟩

theorem mapM_pairwise {α γ : Type} {g : α → Option γ} {R : α → α → Prop} {S : γ → γ → Prop} :
    ∀ (l : List α) (l' : List γ), l.mapM g = some l' → l.Pairwise R →
    (∀ a ∈ l, ∀ a' ∈ l, ∀ b b', g a = some b → g a' = some b' → R a a' → S b b') → l'.Pairwise S
  | [], l', h, _, _ => by
    cases h; exact List.Pairwise.nil
  | a :: l, l', h, hp, hRS => by
    rw [List.mapM_cons] at h
    simp only [Option.bind_eq_bind, Option.bind_eq_some_iff, Option.pure_def, Option.some.injEq] at h
    obtain ⟨b, hb, l'', hl, rfl⟩ := h
    have hp' := List.pairwise_cons.mp hp
    refine List.pairwise_cons.mpr ⟨?_, mapM_pairwise l l'' hl hp'.2 (fun a ha a' ha' => hRS a (by simp [ha]) a' (by simp [ha']))⟩
    intro c hc
    have hex : ∀ (m : List α) (m' : List γ), m.mapM g = some m' → ∀ c ∈ m', ∃ a ∈ m, g a = some c := by
      intro m
      induction m with
      | nil => intro m' h c hc; cases h; simp at hc
      | cons x m ih =>
        intro m' h c hc
        rw [List.mapM_cons] at h
        simp only [Option.bind_eq_bind, Option.bind_eq_some_iff, Option.pure_def, Option.some.injEq] at h
        obtain ⟨y, hy, m'', hm, rfl⟩ := h
        rcases List.mem_cons.mp hc with rfl | hc
        · exact ⟨x, by simp, hy⟩
        · obtain ⟨z, hz, e⟩ := ih m'' hm c hc
          exact ⟨z, by simp [hz], e⟩
    obtain ⟨a', ha', e⟩ := hex l l'' hl c hc
    exact hRS a (by simp) a' (by simp [ha']) b c hb e (hp'.1 a' ha')

/-! ### C34 -/

/-- The fragment's value, if it has one, fits its index. -/
def Fits {β} (f : Frag β) : Prop := ∀ v, f.value = some v → v.shape = lens f.index

theorem chunkValue_exists {β} {f : Frag β} {target : List Nat} (hc : Chunkable f.index target) (hf : Fits f)
    {s : List Int} (hs : Choice s (starts f.index target)) :
    ∃ v, chunkValue f (chunkIndex s target) = some v ∧ (v = none ↔ f.value = none) := by
  unfold chunkValue
  cases hv : f.value with
  | none => exact ⟨none, rfl, by simp⟩
  | some v =>
    obtain ⟨f1, f2, f3, f4⟩ := chunk_facts hc hs
    obtain ⟨c1, c2, c3, c4, c5⟩ := chunkable_facts hc
    -- the offset index fits the value
    have hax : ∀ (idx : List Tri) (target : List Nat) (s : List Int), Chunkable idx target → Choice s (starts idx target) →
        ∃ ax, axes (offset (chunkIndex s target) (idx.map fun t => -t.start)) (lens idx) = some ax := by
      intro idx
      induction idx with
      | nil =>
        intro target s hc hs
        cases target with
        | nil => cases s with
          | nil => exact ⟨_, rfl⟩
          | cons _ _ => simp [starts, Choice] at hs
        | cons _ _ => simp [Chunkable] at hc
      | cons t ts ih =>
        intro target s hc hs
        cases target with
        | nil => simp [Chunkable] at hc
        | cons d target =>
          cases s with
          | nil => simp [starts, Choice] at hs
          | cons x s =>
            obtain ⟨ax, hax⟩ := ih target s hc.2 hs.2
            have e : offset (chunkIndex (x :: s) (d :: target)) ((t :: ts).map fun t => -t.start)
              = ⟨x + -t.start, x + d + -t.start, 1⟩ :: offset (chunkIndex s target) (ts.map fun t => -t.start) := rfl
            rw [e]
            simp only [lens, List.map_cons, axes]
            rw [indices_mk_pos (by decide)]
            simp only [lens] at hax
            simp [hax]
    obtain ⟨ax, hax⟩ := hax f.index target s hc hs
    refine ⟨some { shape := ax.map (·.2.2), at_ := fun i => v.at_ (fromSlice ax i) }, ?_, by simp⟩
    simp [Nd.slice, hf v hv, hax]

/-- C34: chunking a fragment by a dividing target shape gives an exact partition: every chunk has the target
shape and stays inside the fragment, every position of the fragment is in some chunk, and no position is in
two. Chunks of an abstract fragment are abstract, of a concrete one concrete. -/
theorem C34_partition {β} (f : Frag β) (target : List Nat) (hc : Chunkable f.index target) (hf : Fits f) :
    ∃ l, chunkFragment f target = some l ∧
      (∀ g ∈ l, g.shape = target.map Int.ofNat ∧ (g.value = none ↔ f.value = none) ∧ ∀ i, Mem i g.index → Mem i f.index) ∧
      (∀ i, Mem i f.index → ∃ g ∈ l, Mem i g.index) ∧
      l.Pairwise (fun g g' => ∀ i, ¬ (Mem i g.index ∧ Mem i g'.index)) := by
  by_cases heq : f.shape = target.map Int.ofNat
  · refine ⟨[f], by simp [chunkFragment, heq], ?_, ?_, by simp⟩
    · simp [heq]
    · intro i hi; exact ⟨f, by simp, hi⟩
  · obtain ⟨c1, c2, c3, c4, c5⟩ := chunkable_facts hc
    have hex : ∀ s ∈ product (starts f.index target), ∃ g : Frag β,
        ((chunkValue f (chunkIndex s target)).map fun v => (⟨chunkIndex s target, v⟩ : Frag β)) = some g := by
      intro s hs
      obtain ⟨v, hv, -⟩ := chunkValue_exists hc hf ((mem_product _ _).mp hs)
      exact ⟨_, by rw [hv]; rfl⟩
    obtain ⟨l, hl, h1, h2⟩ := mapM_some' _ hex
    refine ⟨l, by rw [chunk_ok hc heq]; exact hl, ?_, ?_, ?_⟩
    · intro g hg
      obtain ⟨s, hs, e⟩ := h1 g hg
      have hs' := (mem_product _ _).mp hs
      obtain ⟨v, hv, hvn⟩ := chunkValue_exists hc hf hs'
      rw [hv] at e
      simp only [Option.map_some, Option.some.injEq] at e
      subst e
      obtain ⟨f1, f2, f3, f4⟩ := chunk_facts hc hs'
      exact ⟨f4, hvn, chunk_sub hc hs'⟩
    · intro i hi
      obtain ⟨s, hs, hm⟩ := chunk_cover hc i hi
      obtain ⟨g, hg, e⟩ := h2 s ((mem_product _ _).mpr hs)
      obtain ⟨v, hv, -⟩ := chunkValue_exists hc hf hs
      rw [hv] at e
      simp only [Option.map_some, Option.some.injEq] at e
      subst e
      exact ⟨_, hg, hm⟩
    · refine mapM_pairwise _ _ hl (nodup_product _ c4) ?_
      intro s hs s' hs' b b' hb hb' hne i hi
      apply hne
      simp only [Option.map_eq_some_iff] at hb hb'
      obtain ⟨v, -, rfl⟩ := hb
      obtain ⟨v', -, rfl⟩ := hb'
      exact chunk_disjoint hc ((mem_product _ _).mp hs) ((mem_product _ _).mp hs') i hi.1 hi.2

/-- C34: the chunks of a piece of an array are pieces of that array. -/
theorem C34_chunks_are_pieces {β} (A : Nd β) (f : Frag β) (target : List Nat) (hp : Piece A f)
    (hc : Chunkable f.index target) (l : List (Frag β)) (h : chunkFragment f target = some l) :
    ∀ g ∈ l, Piece A g := by
  intro g hg
  by_cases heq : f.shape = target.map Int.ofNat
  · simp only [chunkFragment, heq, if_true, Option.some.injEq] at h
    subst h
    simp only [List.mem_singleton] at hg
    subst hg
    exact hp
  · obtain ⟨hw, v, hv, hs, ha⟩ := piece_iff.mp hp
    have hf : Fits f := by intro v' hv'; rw [hv] at hv'; cases hv'; exact hs
    have hex : ∀ s ∈ product (starts f.index target), ∃ g : Frag β,
        ((chunkValue f (chunkIndex s target)).map fun v => (⟨chunkIndex s target, v⟩ : Frag β)) = some g := by
      intro s hs
      obtain ⟨v, hv, -⟩ := chunkValue_exists hc hf ((mem_product _ _).mp hs)
      exact ⟨_, by rw [hv]; rfl⟩
    obtain ⟨l', hl, h1, -⟩ := mapM_some' _ hex
    rw [chunk_ok hc heq, hl] at h
    cases h
    obtain ⟨s, hs', e⟩ := h1 g hg
    have hs' := (mem_product _ _).mp hs'
    obtain ⟨f1, f2, f3, f4⟩ := chunk_facts hc hs'
    obtain ⟨-, -, -, -, c5⟩ := chunkable_facts hc
    obtain ⟨p1, p2, p3, p4⟩ := part_within hw (fun t ht => (c5 t ht).2) f2 f1 (chunk_sub hc hs') ⟨s, f3⟩
    have hsl := slice_within (A := v) (by rw [hs]; exact p1)
    simp only [chunkValue, hv, hsl, Option.map_some, Option.some.injEq] at e
    subst e
    refine piece_iff.mpr ⟨p2, _, rfl, p3, ?_⟩
    intro i hi
    show v.at_ (fromSlice _ i) = _
    rw [ha _ ?_, p4 i hi]
    exact mem_inShape p1 (fromSlice_mem p1 (p3 ▸ hi))

theorem chunkable_of_divisible : ∀ {idx : List Tri} {target : List Nat}, Forward idx → target.length = idx.length →
    target.any (· == 0) = false → divisibleShapes (idx.map fun t => sliceLen t.start t.stop t.step) target = true →
    Chunkable idx target
  | [], [], _, _, _, _ => trivial
  | [], _ :: _, _, h, _, _ => by simp at h
  | _ :: _, [], _, h, _, _ => by simp at h
  | t :: ts, d :: target, hf, hl, hz, hd => by
    simp only [List.any_cons, Bool.or_eq_false_iff, beq_eq_false_iff_ne] at hz
    simp only [divisibleShapes, Bool.and_eq_true, beq_iff_eq, List.map_cons, List.zipWith_cons_cons, List.all_cons,
      id_eq, decide_eq_true_eq] at hd
    have ht := hf t (by simp)
    refine ⟨⟨ht.1, ht.2, by omega, ?_⟩, chunkable_of_divisible (fun t ht => hf t (by simp [ht])) (by simpa using hl) hz.2 ?_⟩
    · have := hd.2.1.resolve_left hz.1
      rw [ht.2] at this
      simp only [sliceLen] at this
      exact Int.dvd_of_emod_eq_zero (by simpa using this)
    · simp only [divisibleShapes, Bool.and_eq_true, beq_iff_eq]
      exact ⟨by simpa using hl.symm, hd.2.2⟩

/-- C34: a forward fragment (steps 1) whose value fits is accepted exactly when its shape is the target shape
or the target shape divides it (same rank, positive dimensions); otherwise an exception is raised. -/
theorem C34_accepted_iff {β} (f : Frag β) (target : List Nat) (hw : Forward f.index) (hf : Fits f) :
    (chunkFragment f target).isSome ↔ f.shape = target.map Int.ofNat ∨ Chunkable f.index target := by
  constructor
  · intro h
    by_cases heq : f.shape = target.map Int.ofNat
    · exact .inl heq
    · right
      unfold chunkFragment at h
      rw [if_neg heq] at h
      split at h
      · simp at h
      · next h1 =>
        split at h
        · simp at h
        · next h2 =>
          split at h
          · simp at h
          · next h3 =>
            have h1' : target.length = f.index.length := by
              have : f.shape.length = f.index.length := by simp [Frag.shape]
              omega
            exact chunkable_of_divisible hw h1' (by simpa [-List.any_eq_false, -List.any_eq_true] using h3) (by simpa [Frag.shape] using h2)
  · rintro (heq | hc)
    · simp [chunkFragment, heq]
    · obtain ⟨l, hl, -⟩ := C34_partition f target hc hf
      simp [hl]

/-- C34: chunking a set of fragments does not change the array they assemble to: if all fragments are pieces
of `A` that cover it and the target shape divides all of them, then chunking succeeds and the chunks assemble
to `A`. -/
theorem C34_chunked_fragments_assemble {β} (A : Nd β) (l : List (Frag β)) (target : List Nat) (junk : List Int → β)
    (hp : ∀ f ∈ l, Piece A f) (hch : ∀ f ∈ l, Chunkable f.index target) (hc : Covered A.shape l) :
    ∃ fs r, chunkFragments ⟨A.shape, l⟩ target = some fs ∧ fs.shape = A.shape ∧
      (∀ g ∈ fs.fragments, g.shape = target.map Int.ofNat) ∧ fs.toArray none junk = some r ∧ Same r A := by
  have hfits : ∀ f ∈ l, Fits f := by
    intro f hf v' hv'
    obtain ⟨-, v, hv, hs, -⟩ := piece_iff.mp (hp f hf)
    rw [hv] at hv'; cases hv'; exact hs
  obtain ⟨ls, hls, h1, h2⟩ := mapM_some' (g := fun f => chunkFragment f target) l (by
    intro f hf
    obtain ⟨c, hc, -⟩ := C34_partition f target (hch f hf) (hfits f hf)
    exact ⟨c, hc⟩)
  have hpieces : ∀ g ∈ ls.flatten, Piece A g ∧ g.shape = target.map Int.ofNat := by
    intro g hg
    obtain ⟨c, hc, hgc⟩ := List.mem_flatten.mp hg
    obtain ⟨f, hf, e⟩ := h1 c hc
    refine ⟨C34_chunks_are_pieces A f target (hp f hf) (hch f hf) c e g hgc, ?_⟩
    obtain ⟨c', hc', hs, -⟩ := C34_partition f target (hch f hf) (hfits f hf)
    rw [e] at hc'; cases hc'
    exact (hs g hgc).1
  have hcov : Covered A.shape ls.flatten := by
    intro i hi
    obtain ⟨f, hf, hm⟩ := hc i hi
    obtain ⟨c, hc, e⟩ := h2 f hf
    obtain ⟨c', hc', -, hcv, -⟩ := C34_partition f target (hch f hf) (hfits f hf)
    rw [e] at hc'; cases hc'
    obtain ⟨g, hg, hgm⟩ := hcv i hm
    exact ⟨g, List.mem_flatten.mpr ⟨c, hc, hg⟩, hgm⟩
  obtain ⟨r, hr, hs⟩ := C35_assemble A ls.flatten junk (fun g hg => (hpieces g hg).1) hcov
  exact ⟨⟨A.shape, ls.flatten⟩, r, by simp [chunkFragments, hls], rfl, fun g hg => (hpieces g hg).2, hr, hs⟩

/-- A stepped fragment, as in the documentation's own example `0:4:2`, is not partitioned: the abstract
fragment `0:2n:2` (of length `n ≥ 2`) chunked to length 1 gives chunks outside the fragment. -/
theorem C34_stepped_fragment_not_partitioned_fails (n : Nat) (hn : 2 ≤ n) :
    ∃ l, chunkFragment (β := Unit) ⟨[⟨0, 2 * n, 2⟩], none⟩ [1] = some l ∧
      ∃ g ∈ l, Mem [1] g.index ∧ ¬ Mem [1] [⟨0, 2 * n, 2⟩] := by
  have hs : Frag.shape (β := Unit) ⟨[⟨0, 2 * n, 2⟩], none⟩ = [(n : Int)] := by
    simp only [Frag.shape, List.map_cons, List.map_nil, sliceLen]
    congr 1
    rw [Int.fdiv_eq_ediv_of_nonneg _ (by decide)]
    omega
  have hex : ∀ s ∈ product [pyRange 0 (2 * n) 1], ∃ g : Frag Unit,
      (do let v ← chunkValue (β := Unit) ⟨[⟨0, 2 * n, 2⟩], none⟩ (chunkIndex s [1])
          return (⟨chunkIndex s [1], v⟩ : Frag Unit)) = some g := by
    intro s _
    exact ⟨⟨chunkIndex s [1], none⟩, rfl⟩
  obtain ⟨l, hl, -, h2⟩ := mapM_some' _ hex
  refine ⟨l, ?_, ?_⟩
  · unfold chunkFragment
    rw [hs, if_neg (by simp; omega), if_neg (by simp), if_neg (by simp [divisibleShapes]), if_neg (by simp)]
    exact hl
  · obtain ⟨g, hg, e⟩ := h2 [1] ((mem_product _ _).mpr ⟨(mem_pyRange (by decide)).mpr ⟨1, by simp, by omega⟩, trivial⟩)
    cases e
    refine ⟨_, hg, ⟨⟨by decide, by decide, 0, by decide⟩, trivial⟩, ?_⟩
    rintro ⟨⟨-, -, k, hk⟩, -⟩
    simp only at hk
    omega

/-! ### Non-vacuity -/

def demoA : Nd Int := ⟨[4, 6], fun i => match i with | [x, y] => 10 * x + y | _ => 0⟩
def demoF : Frag Int := ⟨[⟨2, 4, 1⟩, ⟨0, 6, 1⟩], some ⟨[2, 6], fun i => match i with | [x, y] => 10 * (x + 2) + y | _ => 0⟩⟩
def demoG : Frag Int := ⟨[⟨0, 2, 1⟩, ⟨0, 6, 1⟩], some ⟨[2, 6], fun i => match i with | [x, y] => 10 * x + y | _ => 0⟩⟩

theorem demoF_piece : Piece demoA demoF := by
  refine piece_iff.mpr ⟨⟨⟨by decide, by decide, by decide, by decide⟩, ⟨by decide, by decide, by decide, by decide⟩, trivial⟩,
    _, rfl, by decide, ?_⟩
  intro i hi
  match i, hi with
  | [x, y], _ => simp [demoF, demoA, axOf, fromSlice]; omega

theorem demoG_piece : Piece demoA demoG := by
  refine piece_iff.mpr ⟨⟨⟨by decide, by decide, by decide, by decide⟩, ⟨by decide, by decide, by decide, by decide⟩, trivial⟩,
    _, rfl, by decide, ?_⟩
  intro i hi
  match i, hi with
  | [x, y], _ => simp [demoG, demoA, axOf, fromSlice]

theorem mem_two {α} {x a b : α} (h : x ∈ [a, b]) : x = a ∨ x = b := by simpa using h

theorem demo_covered : Covered demoA.shape [demoF, demoG] := by
  intro i hi
  match i, hi with
  | [x, y], ⟨⟨h1, h2⟩, ⟨h3, h4⟩, _⟩ =>
    by_cases hx : x < 2
    · exact ⟨demoG, by simp, ⟨h1, hx, x, by simp [demoG]⟩, ⟨h3, by simpa using h4, y, by simp [demoG]⟩, trivial⟩
    · exact ⟨demoF, by simp, ⟨by simp [demoF]; omega, by simpa [demoF] using h2, x - 2, by simp [demoF]⟩,
        ⟨h3, by simpa using h4, y, by simp [demoF]⟩, trivial⟩

-- two 2x6 fragments of a 4x6 array: chunked to 1x3 they assemble to the array
example (junk) : ∃ fs r, chunkFragments ⟨demoA.shape, [demoF, demoG]⟩ [1, 3] = some fs ∧ fs.shape = demoA.shape ∧
    (∀ g ∈ fs.fragments, g.shape = [1, 3]) ∧ fs.toArray none junk = some r ∧ Same r demoA :=
  C34_chunked_fragments_assemble demoA _ [1, 3] junk
    (by intro f hf; rcases mem_two hf with rfl | rfl; exact demoF_piece; exact demoG_piece)
    (by
      intro f hf; rcases mem_two hf with rfl | rfl
      · exact ⟨⟨by decide, rfl, by decide, by decide⟩, ⟨by decide, rfl, by decide, by decide⟩, trivial⟩
      · exact ⟨⟨by decide, rfl, by decide, by decide⟩, ⟨by decide, rfl, by decide, by decide⟩, trivial⟩)
    demo_covered

-- the two fragments assemble to the array
example (junk) : ∃ r, Frags.toArray ⟨demoA.shape, [demoF, demoG]⟩ none junk = some r ∧ Same r demoA :=
  C35_assemble demoA _ junk
    (by intro f hf; rcases mem_two hf with rfl | rfl; exact demoF_piece; exact demoG_piece) demo_covered

-- slicing them by [1:3, 2:9]
example (junk) := C36_slice_commutes demoA [demoF, demoG] [⟨1, 3, 1⟩, ⟨2, 9, 1⟩] junk
    (by intro f hf; rcases mem_two hf with rfl | rfl; exact demoF_piece; exact demoG_piece)
    (by intro f hf; rcases mem_two hf with rfl | rfl <;> intro t ht <;> simp [demoF, demoG] at ht <;>
          rcases ht with rfl | rfl <;> rfl)
    demo_covered ⟨⟨by decide, by decide, by decide, rfl⟩, ⟨by decide, by decide, by decide, rfl⟩, trivial⟩

-- one fragment alone does not cover
example (junk) : Frags.toArray ⟨demoA.shape, [demoF]⟩ none junk = none :=
  C35_incomplete_rejected demoA _ none junk (by intro f hf; rw [List.mem_singleton.mp hf]; exact demoF_piece)
    (by
      intro h
      obtain ⟨f, hf, hm⟩ := h [0, 0] ⟨⟨by decide, by decide⟩, ⟨by decide, by decide⟩, trivial⟩
      rw [List.mem_singleton.mp hf] at hm
      exact absurd hm.1.1 (by decide))

end Verif.Arrays
