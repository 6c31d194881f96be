import Verif.Arrays.ChunkShape
import Verif.Arrays.ChunksProps
import Mathlib.Algebra.BigOperators.Group.List.Basic
import Mathlib.Algebra.Order.BigOperators.Group.List

/-!
# Properties of the choice of a chunk shape (C33)

Specification.  `floor1 w`: the write shape with zero dimensions replaced by 1 (the code works with that one).
`base w axes`: the shape in which only the requested axes are cut, down to 1.
-/

namespace Verif.Arrays.ChunkShape

/-- The write shape with zero-sized dimensions replaced by 1. -/
def floor1 (w : List Nat) : List Nat := w.map fun d => max 1 d

/-- `s` is the shape `w` with exactly the dimensions `axes` cut to 1. -/
def IsBase (w : List Nat) (axes : List Int) (s : List Nat) : Prop :=
  s.length = w.length ∧
  ∀ (i d : Nat), w[i]? = some d → ((i : Int) ∈ axes → s[i]? = some 1) ∧ ((i : Int) ∉ axes → s[i]? = some d)

/-! ### Divisors -/

theorem mem_findDivisors {n d : Nat} (hn : 0 < n) : d ∈ findDivisors n ↔ 0 < d ∧ d ∣ n := by
  simp only [findDivisors, List.mem_filter, List.mem_range, List.mem_append, List.mem_reverse, List.mem_map,
    Bool.and_eq_true, decide_eq_true_eq]
  constructor
  · rintro ⟨-, ⟨-, ⟨h1, h2⟩, h3⟩ | ⟨e, ⟨-, ⟨h1, h2⟩, h3⟩, rfl⟩⟩
    · exact ⟨h1, Nat.dvd_of_mod_eq_zero h3⟩
    · have hd := Nat.dvd_of_mod_eq_zero h3
      exact ⟨Nat.div_pos (Nat.le_of_dvd hn hd) (by omega), Nat.div_dvd_of_dvd hd⟩
  · rintro ⟨h1, h2⟩
    have hle := Nat.le_of_dvd hn h2
    obtain ⟨e, rfl⟩ := h2
    have he : 0 < e := by
      rcases Nat.eq_zero_or_pos e with rfl | h
      · simp at hn
      · exact h
    refine ⟨by omega, ?_⟩
    rcases le_total d e with h | h
    · left
      exact ⟨by omega, ⟨h1, Nat.mul_le_mul_left d h⟩, Nat.mul_mod_right d e⟩
    · right
      refine ⟨e, ⟨?_, ⟨he, Nat.mul_le_mul_right e h⟩, Nat.mul_mod_left d e⟩, Nat.mul_div_cancel d he⟩
      have := Nat.le_mul_of_pos_left e h1
      omega

theorem findDivisors_sorted (n : Nat) : (findDivisors n).Pairwise (· < ·) :=
  List.Pairwise.filter _ List.pairwise_lt_range

theorem findDivisors_getLast {n : Nat} (hn : 0 < n) : (findDivisors n).getLast? = some n := by
  have hm : n ∈ findDivisors n := (mem_findDivisors hn).mpr ⟨hn, dvd_refl n⟩
  rcases List.eq_nil_or_concat (findDivisors n) with h | ⟨l, x, h⟩
  · rw [h] at hm; simp at hm
  · rw [h]
    have hs := findDivisors_sorted n
    rw [h] at hs hm
    have hx : x ∈ findDivisors n := by rw [h]; simp
    have hxle := Nat.le_of_dvd hn ((mem_findDivisors hn).mp hx).2
    simp only [List.concat_eq_append, List.mem_append, List.mem_singleton] at hm
    rw [List.concat_eq_append, List.pairwise_append] at hs
    rcases hm with hm | hm
    · have := hs.2.2 n hm x (by simp)
      omega
    · simp [hm]

theorem findDivisors_cons {n : Nat} (hn : 0 < n) : ∃ l, findDivisors n = 1 :: l := by
  have hm : 1 ∈ findDivisors n := (mem_findDivisors hn).mpr ⟨by omega, one_dvd n⟩
  cases h : findDivisors n with
  | nil => rw [h] at hm; simp at hm
  | cons x l =>
    have hx : x ∈ findDivisors n := by rw [h]; simp
    have := ((mem_findDivisors hn).mp hx).1
    have hs := findDivisors_sorted n
    rw [h] at hm hs
    rcases List.mem_cons.mp hm with hm | hm
    · exact ⟨l, by rw [hm]⟩
    · have := (List.pairwise_cons.mp hs).1 1 hm
      omega

open scoped List in
/-- A list of factors during the computation: some of the divisors, from 1 upward. -/
structure Factors (n : Nat) (f : List Nat) : Prop where
  pref : f <+: findDivisors n
  ne : f ≠ []

/-- The current size of a dimension. -/
def top (f : List Nat) : Nat := f.getLast?.getD 1

theorem top_of_ne {f : List Nat} (h : f ≠ []) : f.getLast? = some (top f) := by
  cases hf : f.getLast? with
  | none => exact absurd (List.getLast?_eq_none_iff.mp hf) h
  | some x => simp [top, hf]

theorem top_mem {f : List Nat} (h : f ≠ []) : top f ∈ f := List.mem_of_getLast? (top_of_ne h)

theorem Factors.cons {n : Nat} {f : List Nat} (hn : 0 < n) (h : Factors n f) : ∃ l, f = 1 :: l := by
  obtain ⟨l, hl⟩ := findDivisors_cons hn
  cases f with
  | nil => exact absurd rfl h.ne
  | cons x f =>
    have := h.pref
    rw [hl, List.cons_prefix_cons] at this
    exact ⟨f, by rw [this.1]⟩

theorem Factors.top_dvd {n : Nat} {f : List Nat} (hn : 0 < n) (h : Factors n f) : 0 < top f ∧ top f ∣ n :=
  (mem_findDivisors hn).mp (h.pref.subset (top_mem h.ne))

theorem Factors.sorted {n : Nat} {f : List Nat} (h : Factors n f) : f.Pairwise (· < ·) :=
  (findDivisors_sorted n).sublist h.pref.sublist

theorem Factors.long_iff {n : Nat} {f : List Nat} (hn : 0 < n) (h : Factors n f) : f.length > 1 ↔ top f > 1 := by
  obtain ⟨l, rfl⟩ := h.cons hn
  have hs := List.pairwise_cons.mp h.sorted
  constructor
  · intro hl
    have hl' : l ≠ [] := by rintro rfl; simp at hl
    have : top (1 :: l) ∈ l := by
      have : top (1 :: l) = top l := by
        unfold top
        rw [List.getLast?_cons, top_of_ne hl']
        simp
      rw [this]; exact top_mem hl'
    exact hs.1 _ this
  · intro ht
    cases l with
    | nil => simp [top] at ht
    | cons _ _ => simp

theorem Factors.short {n : Nat} {f : List Nat} (hn : 0 < n) (h : Factors n f) (ht : top f = 1) : f = [1] := by
  have hl : ¬ f.length > 1 := fun hl => by have := (h.long_iff hn).mp hl; omega
  obtain ⟨l, rfl⟩ := h.cons hn
  cases l with
  | nil => rfl
  | cons _ _ => simp at hl

theorem Factors.drop {n : Nat} {f : List Nat} (h : Factors n f) (hl : f.length > 1) : Factors n f.dropLast where
  pref := (List.dropLast_prefix f).trans h.pref
  ne := by
    intro e
    have := congrArg List.length e
    simp at this
    omega

/-- Undoing a reduction gives the next larger divisor. -/
theorem Factors.next {n : Nat} {f : List Nat} (hn : 0 < n) (h : Factors n f) (hl : f.length > 1) :
    top f.dropLast < top f ∧ ∀ e, e ∣ n → top f.dropLast < e → top f ≤ e := by
  have hd := h.drop hl
  obtain ⟨t, ht⟩ := h.pref
  have hf : f = f.dropLast ++ [top f] := by
    have := top_of_ne h.ne
    rcases List.eq_nil_or_concat f with e | ⟨l, x, e⟩
    · exact absurd e h.ne
    · rw [e] at this ⊢
      simp [top]
  have hg : f.dropLast = f.dropLast.dropLast ++ [top f.dropLast] := by
    rcases List.eq_nil_or_concat f.dropLast with e | ⟨l, x, e⟩
    · exact absurd e hd.ne
    · rw [e]
      simp [top]
  have hs := findDivisors_sorted n
  have hall : findDivisors n = f.dropLast.dropLast ++ [top f.dropLast] ++ [top f] ++ t := by
    rw [← hg, ← hf, ht]
  rw [hall] at hs
  have e0 : f.dropLast.dropLast ++ [top f.dropLast] ++ [top f] ++ t
      = f.dropLast.dropLast ++ (top f.dropLast :: top f :: t) := by simp
  rw [e0] at hall hs
  rw [List.pairwise_append, List.pairwise_cons, List.pairwise_cons] at hs
  refine ⟨hs.2.1.1 _ (by simp), ?_⟩
  intro e he hlt
  have hm : e ∈ findDivisors n := (mem_findDivisors hn).mpr ⟨by omega, he⟩
  rw [hall] at hm
  simp only [List.mem_append, List.mem_cons] at hm
  rcases hm with hm | rfl | rfl | hm
  · have := hs.2.2 e hm (top f.dropLast) (by simp)
    omega
  · omega
  · exact le_refl _
  · exact le_of_lt (hs.2.1.2.1 e hm)

/-! ### The invariant -/

/-- The current shape. -/
def shape (st : St) : List Nat := st.factors.map top

structure Inv (w : List Nat) (st : St) : Prop where
  rank : st.factors.length = w.length
  rank' : st.sharded.length = w.length
  good : ∀ (i : Nat) (f : List Nat) (n : Nat), st.factors[i]? = some f → w[i]? = some n → Factors n f
  total : st.total = (shape st).prod

theorem Inv.get {w : List Nat} {st : St} (h : Inv w st) {i : Nat} {f : List Nat} (hf : st.factors[i]? = some f) :
    ∃ n, w[i]? = some n ∧ Factors n f := by
  have hi := (List.getElem?_eq_some_iff.mp hf).1
  rw [h.rank] at hi
  exact ⟨w[i], by simp [hi], h.good i f _ hf (by simp [hi])⟩

/-- All dimensions positive. -/
def Pos (w : List Nat) : Prop := ∀ (i n : Nat), w[i]? = some n → 0 < n

theorem prod_set_mul : ∀ (l : List Nat) (i x y : Nat), l[i]? = some x → (l.set i y).prod * x = l.prod * y
  | [], _, _, _, h => by simp at h
  | a :: l, 0, x, y, h => by
    simp only [List.getElem?_cons_zero, Option.some.injEq] at h
    subst h
    simp only [List.set_cons_zero, List.prod_cons]
    ring
  | a :: l, i + 1, x, y, h => by
    have ih := prod_set_mul l i x y (by simpa using h)
    simp only [List.set_cons_succ, List.prod_cons]
    rw [Nat.mul_assoc, ih, Nat.mul_assoc]

theorem prod_update {l : List Nat} {i x y : Nat} (h : l[i]? = some x) (hx : 0 < x) :
    l.prod / x * y = (l.set i y).prod := by
  have h1 := prod_set_mul l i x y h
  have hd : x ∣ l.prod := by
    have hm := List.mem_of_getElem? h
    clear h1 h
    induction l with
    | nil => simp at hm
    | cons a l ih =>
      rw [List.prod_cons]
      rcases List.mem_cons.mp hm with rfl | hm
      · exact Dvd.intro _ rfl
      · exact Dvd.dvd.mul_left (ih hm) a
  obtain ⟨q, hq⟩ := hd
  rw [hq, Nat.mul_div_cancel_left q hx]
  rw [hq] at h1
  have : (l.set i y).prod * x = (q * y) * x := by rw [h1]; ring
  exact (Nat.eq_of_mul_eq_mul_right hx this).symm

theorem map_top_set (l : List (List Nat)) (i : Nat) (f : List Nat) : (l.set i f).map top = (l.map top).set i (top f) := by
  rw [List.map_set]

theorem reduceDim_spec {w : List Nat} {st : St} (hw : Pos w) (h : Inv w st) {i : Nat} {f : List Nat}
    (hf : st.factors[i]? = some f) (hl : f.length > 1) :
    ∃ st', reduceDim st i = .ok st' ∧ Inv w st' ∧ st'.factors = st.factors.set i f.dropLast ∧
      st'.sharded = st.sharded.set i true := by
  obtain ⟨n, hn, hg⟩ := h.get hf
  have hd := hg.drop hl
  have hi := (List.getElem?_eq_some_iff.mp hf).1
  refine ⟨{ factors := st.factors.set i f.dropLast, total := st.total / top f * top f.dropLast,
            sharded := st.sharded.set i true }, ?_, ?_, rfl, rfl⟩
  · unfold reduceDim
    rw [hf]
    simp only [top_of_ne hg.ne, top_of_ne hd.ne]
  · refine ⟨by simp [h.rank], by simp [h.rank'], ?_, ?_⟩
    · intro j g m hj hm
      by_cases hij : i = j
      · subst hij
        simp [hi] at hj
        subst hj
        rw [hn] at hm; cases hm
        exact hd
      · rw [List.getElem?_set_ne hij] at hj
        exact h.good j g m hj hm
    · show st.total / top f * top f.dropLast = (shape _).prod
      rw [h.total]
      unfold shape
      rw [map_top_set]
      exact prod_update (by simp [hf]) (hg.top_dvd (hw i n hn)).1

theorem current_spec {w : List Nat} {st : St} (h : Inv w st) : current st = .ok (shape st) := by
  have : st.factors.mapM (fun f => f.getLast?) = some (st.factors.map top) := by
    refine mapM_some _ (fun f hf => ?_)
    obtain ⟨i, hi⟩ := List.getElem?_of_mem hf
    obtain ⟨n, -, hg⟩ := h.get hi
    exact top_of_ne hg.ne
  simp [current, this, shape]

/-- How a phase changes the state: factors only shrink, dimensions only become sharded. -/
structure Le (st st' : St) : Prop where
  factors : ∀ (i : Nat) (f f' : List Nat), st.factors[i]? = some f → st'.factors[i]? = some f' → f' <+: f
  sharded : ∀ (i : Nat), st.sharded[i]? = some true → st'.sharded[i]? = some true

theorem Le.refl (st : St) : Le st st := ⟨fun i f f' h h' => by rw [h] at h'; cases h'; exact List.prefix_refl _, fun _ h => h⟩

theorem set_true_mono (l : List Bool) (i j : Nat) (h : l[j]? = some true) : (l.set i true)[j]? = some true := by
  by_cases hij : i = j
  · subst hij
    have := (List.getElem?_eq_some_iff.mp h).1
    simp [this]
  · rw [List.getElem?_set_ne hij]; exact h

theorem len_of_get {l : List (List Nat)} {i : Nat} {f : List Nat} (h : l[i]? = some f) : f.length ≤ (l.map List.length).sum := by
  have hm : f.length ∈ l.map List.length := List.mem_map.mpr ⟨f, List.mem_of_getElem? h, rfl⟩
  exact List.single_le_sum (fun _ _ => Nat.zero_le _) _ hm

/-! ### Requested axes -/

theorem reduceAxis_spec {w : List Nat} (hw : Pos w) : ∀ (fuel i : Nat) (st : St) (f : List Nat), Inv w st →
    st.factors[i]? = some f →
    (reduceAxis fuel i st = .diverges ∧ fuel < f.length) ∨
    ∃ st', reduceAxis fuel i st = .ok st' ∧ Inv w st' ∧ st'.factors = st.factors.set i [1] ∧
      (∀ (j : Nat), j ≠ i → st'.sharded[j]? = st.sharded[j]?) ∧ (∀ (j : Nat), st.sharded[j]? = some true → st'.sharded[j]? = some true)
  | 0, i, st, f, h, hf => by
    left
    obtain ⟨n, hn, hg⟩ := h.get hf
    exact ⟨rfl, List.length_pos_of_ne_nil hg.ne⟩
  | fuel + 1, i, st, f, h, hf => by
    obtain ⟨n, hn, hg⟩ := h.get hf
    simp only [reduceAxis, hf]
    by_cases hl : f.length > 1
    · rw [if_pos hl]
      obtain ⟨st1, e1, h1, f1, s1⟩ := reduceDim_spec hw h hf hl
      rw [e1]
      have hi := (List.getElem?_eq_some_iff.mp hf).1
      rcases reduceAxis_spec hw fuel i st1 f.dropLast h1 (by rw [f1]; simp [hi]) with ⟨e2, h2⟩ | ⟨st2, e2, h2, f2, s2, s2'⟩
      · left
        refine ⟨e2, ?_⟩
        simp at h2; omega
      · right
        refine ⟨st2, e2, h2, by rw [f2, f1]; simp, ?_, ?_⟩
        · intro j hj
          rw [s2 j hj, s1, List.getElem?_set_ne (Ne.symm hj)]
        · intro j hj
          exact s2' j (by rw [s1]; exact set_true_mono _ _ _ hj)
    · rw [if_neg hl]
      right
      have htop : top f = 1 := by
        have h1 := hg.long_iff (hw i n hn)
        have h2 := (hg.top_dvd (hw i n hn)).1
        omega
      have hf1 := hg.short (hw i n hn) htop
      refine ⟨st, rfl, h, ?_, fun _ _ => rfl, fun _ h => h⟩
      subst hf1
      have hi := (List.getElem?_eq_some_iff.mp hf)
      rw [← hi.2]
      simp

theorem reduceAxes_spec {w : List Nat} (hw : Pos w) (fuel : Nat) : ∀ (axes : List Nat) (st : St), Inv w st →
    (∀ a ∈ axes, a < w.length) →
    (reduceAxes fuel axes st = .diverges ∧ fuel < (st.factors.map List.length).sum) ∨
    ∃ st', reduceAxes fuel axes st = .ok st' ∧ Inv w st' ∧
      (∀ (i : Nat), i ∈ axes → st'.factors[i]? = some [1]) ∧ (∀ (i : Nat), i ∉ axes → st'.factors[i]? = st.factors[i]?) ∧
      (∀ (j : Nat), j ∉ axes → st'.sharded[j]? = st.sharded[j]?) ∧ (∀ (j : Nat), st.sharded[j]? = some true → st'.sharded[j]? = some true)
  | [], st, h, _ => .inr ⟨st, rfl, h, by simp, fun _ _ => rfl, fun _ _ => rfl, fun _ h => h⟩
  | a :: axes, st, h, ha => by
    have hlt : a < st.factors.length := by rw [h.rank]; exact ha a (by simp)
    have hf : st.factors[a]? = some st.factors[a] := by simp [hlt]
    obtain ⟨n, hn, hg⟩ := h.get hf
    simp only [reduceAxes]
    rcases reduceAxis_spec hw fuel a st _ h hf with ⟨e, hfu⟩ | ⟨st1, e, h1, f1, s1, s1'⟩
    · left
      rw [e]
      exact ⟨rfl, lt_of_lt_of_le hfu (len_of_get hf)⟩
    · rw [e]
      rcases reduceAxes_spec hw fuel axes st1 h1 (fun b hb => ha b (by simp [hb])) with ⟨e2, hfu⟩ | ⟨st2, e2, h2, f2, g2, s2, s2'⟩
      · left
        refine ⟨e2, lt_of_lt_of_le hfu ?_⟩
        rw [f1, List.map_set]
        have h1 : ([1] : List Nat).length ≤ (st.factors[a]).length := List.length_pos_of_ne_nil hg.ne
        have : ∀ (l : List Nat) (i x : Nat) (hi : i < l.length), x ≤ l[i] → (l.set i x).sum ≤ l.sum := by
          intro l
          induction l with
          | nil => intro i x hi; simp at hi
          | cons b l ih =>
            intro i x hi hx
            cases i with
            | zero => simp at hx ⊢; omega
            | succ i => simp at hx ⊢; exact ih i x _ hx
        exact this _ _ _ (by simpa using hlt) (by simpa using h1)
      · right
        refine ⟨st2, e2, h2, ?_, ?_, ?_, ?_⟩
        · intro i hi
          by_cases hia : i ∈ axes
          · exact f2 i hia
          · have : i = a := by
              rcases List.mem_cons.mp hi with hi | hi
              · exact hi
              · exact absurd hi hia
            subst this
            rw [g2 i hia, f1]
            simp [hlt]
        · intro i hi
          simp only [List.mem_cons, not_or] at hi
          rw [g2 i hi.2, f1, List.getElem?_set_ne (Ne.symm hi.1)]
        · intro j hj
          simp only [List.mem_cons, not_or] at hj
          rw [s2 j hj.2, s1 j hj.1]
        · intro j hj
          exact s2' j (s1' j hj)

/-- The round robin over the requested axes never has a candidate: they have all been cut to 1 before. -/
theorem shardLoop_noop (target : Nat) (axes : List Nat) (fuel : Nat) (st : St)
    (h : ∀ i ∈ axes, st.factors[i]? = some [1]) : shardLoop target axes (fuel + 2) st = .ok st := by
  have hc : candidates axes st = [] := by
    rw [candidates, List.filter_eq_nil_iff]
    intro i hi
    simp [h i hi]
  rw [shardLoop]
  split
  · simp only
    rw [hc]
    simp [roundRobin, Out.bind]
  · rfl

theorem shardLoop_small (target : Nat) (axes : List Nat) (fuel : Nat) (st : St)
    (h : ∀ i ∈ axes, st.factors[i]? = some [1]) :
    shardLoop target axes fuel st = .ok st ∨ (shardLoop target axes fuel st = .diverges ∧ fuel < 2) := by
  match fuel with
  | 0 => right; exact ⟨rfl, by omega⟩
  | 1 =>
    simp only [shardLoop]
    split
    · right
      exact ⟨by simp [roundRobin, Out.bind], by omega⟩
    · left; rfl
  | fuel + 2 => left; exact shardLoop_noop target axes fuel st h

/-! ### The greedy loop -/

theorem pick_spec : ∀ (l : List (Nat × Bool)) (k : Nat) (d : Option Nat) (best : Nat),
    let r := pick k l (d, best)
    best ≤ r.2 ∧ (∀ (i : Nat) (x : Nat), l[i]? = some (x, true) → x ≤ r.2) ∧
    ((r = (d, best)) ∨ ∃ i : Nat, r.1 = some (k + i) ∧ l[i]? = some (r.2, true) ∧ best < r.2)
  | [], k, d, best => ⟨le_refl _, by simp, .inl rfl⟩
  | (size, sh) :: l, k, d, best => by
    simp only [pick]
    by_cases hc : (sh && decide (size > best)) = true
    · rw [if_pos hc]
      simp only [Bool.and_eq_true, decide_eq_true_eq] at hc
      obtain ⟨h1, h2, h3⟩ := pick_spec l (k + 1) (some k) size
      refine ⟨by omega, ?_, ?_⟩
      · intro i x hi
        cases i with
        | zero => simp at hi; omega
        | succ i => exact h2 i x (by simpa using hi)
      · right
        rcases h3 with h3 | ⟨i, h4, h5, h6⟩
        · exact ⟨0, by rw [h3]; simp, by rw [h3]; simp [hc.1], by rw [h3]; exact hc.2⟩
        · exact ⟨i + 1, by rw [h4]; congr 1; omega, by simpa using h5, by omega⟩
    · rw [if_neg hc]
      obtain ⟨h1, h2, h3⟩ := pick_spec l (k + 1) d best
      refine ⟨h1, ?_, ?_⟩
      · intro i x hi
        cases i with
        | zero =>
          simp only [List.getElem?_cons_zero, Option.some.injEq, Prod.mk.injEq] at hi
          obtain ⟨rfl, rfl⟩ := hi
          simp at hc
          omega
        | succ i => exact h2 i x (by simpa using hi)
      · rcases h3 with h3 | ⟨i, h4, h5, h6⟩
        · exact .inl h3
        · exact .inr ⟨i + 1, by rw [h4]; congr 1; omega, by simpa using h5, h6⟩

/-- How far the loop is from its end. -/
def measure (st : St) : Nat := 2 * (st.factors.map List.length).sum + (if st.sharded.all id then 0 else 1)

/-- What the greedy loop does. -/
structure Greedy (w : List Nat) (target : Nat) (st st' : St) : Prop where
  inv : Inv w st'
  budget : st'.total ≤ target
  le : ∀ (i : Nat) (f f' : List Nat), st.factors[i]? = some f → st'.factors[i]? = some f' → f' <+: f
  last : st'.factors = st.factors ∨ ∃ (i n : Nat) (g : List Nat), w[i]? = some n ∧ Factors n g ∧ g.length > 1 ∧
    st'.factors[i]? = some g.dropLast ∧ (∃ f, st.factors[i]? = some f ∧ g <+: f) ∧
    ((shape st').set i (top g)).prod > target
  first : ∀ (i : Nat), st.sharded[i]? = some false → st'.factors[i]? ≠ st.factors[i]? →
    ∀ (j : Nat), st.sharded[j]? = some true → st'.factors[j]? = some [1]

theorem sum_set : ∀ (l : List (List Nat)) (i : Nat) (f g : List Nat), l[i]? = some f → g.length + 1 = f.length →
    ((l.set i g).map List.length).sum + 1 = (l.map List.length).sum
  | [], _, _, _, h, _ => by simp at h
  | a :: l, 0, f, g, h, hl => by
    simp only [List.getElem?_cons_zero, Option.some.injEq] at h
    subst h
    simp; omega
  | a :: l, i + 1, f, g, h, hl => by
    have ih := sum_set l i f g (by simpa using h) hl
    simp only [List.set_cons_succ, List.map_cons, List.sum_cons]
    omega

theorem all_true_iff (l : List Bool) : l.all id = true ↔ ∀ (i : Nat) (b : Bool), l[i]? = some b → b = true := by
  rw [List.all_eq_true]
  constructor
  · intro h i b hi
    exact h b (List.mem_of_getElem? hi)
  · intro h b hb
    obtain ⟨i, hi⟩ := List.getElem?_of_mem hb
    exact h i b hi

theorem greedy_spec {w : List Nat} (hw : Pos w) (target : Nat) (ht : 0 < target) : ∀ (fuel : Nat) (st : St), Inv w st →
    (greedy target fuel st = .diverges ∧ fuel ≤ measure st) ∨
    ∃ st', greedy target fuel st = .ok st' ∧ Greedy w target st st'
  | 0, st, _ => .inl ⟨rfl, Nat.zero_le _⟩
  | fuel + 1, st, h => by
    simp only [greedy]
    by_cases htot : st.total > target
    · rw [if_pos htot, current_spec h]
      simp only
      have hzip : ∀ (i x : Nat), ((shape st).zip st.sharded)[i]? = some (x, true) ↔
          (shape st)[i]? = some x ∧ st.sharded[i]? = some true := by
        intro i x
        rw [List.getElem?_zip_eq_some]
      obtain ⟨p1, p2, p3⟩ := pick_spec ((shape st).zip st.sharded) 0 none 1
      generalize hr : pick 0 ((shape st).zip st.sharded) (none, 1) = r at p1 p2 p3
      -- the branch that declares all dimensions sharded
      have allCase : r = (none, 1) →
          (greedy target fuel { st with sharded := st.sharded.map fun _ => true } = .diverges ∧ fuel + 1 ≤ measure st) ∨
          ∃ st', greedy target fuel { st with sharded := st.sharded.map fun _ => true } = .ok st' ∧ Greedy w target st st' := by
        intro hr1
        have hi : Inv w { st with sharded := st.sharded.map fun _ => true } :=
          ⟨h.rank, by simp [h.rank'], h.good, h.total⟩
        have hones : ∀ (j : Nat), st.sharded[j]? = some true → ∀ f, st.factors[j]? = some f → f = [1] := by
          intro j hj f hf
          obtain ⟨n, hn, hg⟩ := h.get hf
          have h1 := p2 j (top f) ((hzip _ _).mpr ⟨by simp [shape, hf], hj⟩)
          rw [hr1] at h1
          have h2 := (hg.top_dvd (hw j n hn)).1
          exact hg.short (hw j n hn) (by simp at h1; omega)
        -- not everything was sharded already, else the shape would be all ones
        have hnot : st.sharded.all id = false := by
          by_contra hcon
          have hcon : st.sharded.all id = true := by simpa using hcon
          have hall := (all_true_iff _).mp hcon
          have : st.total = 1 := by
            rw [h.total]
            refine List.prod_eq_one ?_
            intro x hx
            obtain ⟨i, hi⟩ := List.getElem?_of_mem hx
            simp only [shape, List.getElem?_map, Option.map_eq_some_iff] at hi
            obtain ⟨f, hf, rfl⟩ := hi
            have hlt := (List.getElem?_eq_some_iff.mp hf).1
            have hlt' : i < st.sharded.length := by rw [h.rank', ← h.rank]; exact hlt
            have hb : st.sharded[i]? = some st.sharded[i] := by simp [hlt']
            have := hall i _ hb
            rw [this] at hb
            rw [hones i hb f hf]
            rfl
          omega
        rcases greedy_spec hw target ht fuel _ hi with ⟨e, hm⟩ | ⟨st', e, hg⟩
        · left
          refine ⟨e, ?_⟩
          have h1 : (st.sharded.map fun _ => true).all id = true := by simp
          simp only [measure, h1, if_true] at hm
          simp only [measure, hnot, Bool.false_eq_true, if_false]
          omega
        · right
          refine ⟨st', e, ⟨hg.inv, hg.budget, hg.le, hg.last, ?_⟩⟩
          intro i hi hne j hj
          have hlt : j < st.factors.length := by
            have := (List.getElem?_eq_some_iff.mp hj).1
            rw [h.rank, ← h.rank']; exact this
          have hfj : st.factors[j]? = some st.factors[j] := by simp [hlt]
          have hlt' : j < st'.factors.length := by rw [hg.inv.rank, ← h.rank]; exact hlt
          have hfj' : st'.factors[j]? = some st'.factors[j] := by simp [hlt']
          have h1 := hones j hj _ hfj
          have hpre := hg.le j _ _ hfj hfj'
          obtain ⟨n, -, hgf⟩ := hg.inv.get hfj'
          rw [hfj']
          rw [h1] at hpre
          congr 1
          rcases List.prefix_cons_iff.mp hpre with e | ⟨t, e, ht⟩
          · exact absurd e hgf.ne
          · rw [e, List.prefix_nil.mp ht]
      rcases p3 with p3 | ⟨i, p4, p5, p6⟩
      · rw [p3]
        simp only
        exact allCase p3
      · obtain ⟨d, m⟩ := r
        simp only [Nat.zero_add] at p4
        simp only at p5 p6 p1 p2
        subst p4
        simp only
        rw [if_pos p6]
        obtain ⟨hx, hsh⟩ := (hzip _ _).mp p5
        simp only [shape, List.getElem?_map, Option.map_eq_some_iff] at hx
        obtain ⟨f, hf, hfm⟩ := hx
        obtain ⟨n, hn, hgf⟩ := h.get hf
        have hl : f.length > 1 := (hgf.long_iff (hw i n hn)).mpr (by omega)
        obtain ⟨st1, e1, h1, f1, s1⟩ := reduceDim_spec hw h hf hl
        rw [e1]
        have hi := (List.getElem?_eq_some_iff.mp hf).1
        have hs1 : st1.sharded = st.sharded := by
          rw [s1]
          have hb := List.getElem?_eq_some_iff.mp hsh
          apply List.ext_getElem?
          intro j
          by_cases hij : i = j
          · subst hij; simp [hb.1, hb.2]
          · rw [List.getElem?_set_ne hij]
        rcases greedy_spec hw target ht fuel st1 h1 with ⟨e, hm⟩ | ⟨st', e, hg⟩
        · left
          refine ⟨e, ?_⟩
          have := sum_set st.factors i f f.dropLast hf (by simp; omega)
          simp only [measure, f1, hs1] at hm
          simp only [measure]
          omega
        · right
          have hget : ∀ (j : Nat) (g' : List Nat), st'.factors[j]? = some g' → ∃ g, st1.factors[j]? = some g := by
            intro j g' hj
            have := (List.getElem?_eq_some_iff.mp hj).1
            rw [hg.inv.rank, ← h1.rank] at this
            exact ⟨_, List.getElem?_eq_getElem this⟩
          refine ⟨st', e, ⟨hg.inv, hg.budget, ?_, ?_, ?_⟩⟩
          · intro j g g' hj hj'
            by_cases hij : i = j
            · subst hij
              rw [hf] at hj; cases hj
              exact (hg.le i f.dropLast g' (by rw [f1]; simp [hi]) hj').trans (List.dropLast_prefix f)
            · exact hg.le j g g' (by rw [f1, List.getElem?_set_ne hij]; exact hj) hj'
          · right
            rcases hg.last with hlast | ⟨j, nj, g, q1, q2, q3, q4, ⟨f', q5, q5'⟩, q6⟩
            · refine ⟨i, n, f, hn, hgf, hl, by rw [hlast, f1]; simp [hi], ⟨f, hf, List.prefix_refl f⟩, ?_⟩
              have : (shape st').set i (top f) = shape st := by
                unfold shape
                rw [← map_top_set, hlast, f1, List.set_set]
                congr 1
                have := (List.getElem?_eq_some_iff.mp hf).2
                rw [← this]
                simp
              rw [this, ← h.total]
              exact htot
            · refine ⟨j, nj, g, q1, q2, q3, q4, ?_, q6⟩
              by_cases hij : i = j
              · subst hij
                rw [f1] at q5
                simp [hi] at q5
                exact ⟨f, hf, (q5 ▸ q5').trans (List.dropLast_prefix f)⟩
              · rw [f1, List.getElem?_set_ne hij] at q5
                exact ⟨f', q5, q5'⟩
          · intro j hj hne k hk
            have hij : i ≠ j := by
              rintro rfl
              rw [hsh] at hj; cases hj
            refine hg.first j (by rw [hs1]; exact hj) ?_ k (by rw [hs1]; exact hk)
            rw [f1, List.getElem?_set_ne hij]
            exact hne
    · rw [if_neg htot]
      right
      exact ⟨st, rfl, ⟨h, by omega, fun i f f' h h' => by rw [h] at h'; cases h'; exact List.prefix_refl _,
        .inl rfl, fun i _ hne => absurd rfl hne⟩⟩

/-! ### The whole function -/

theorem floor1_pos (w : List Nat) : Pos (floor1 w) := by
  intro i n h
  simp only [floor1, List.getElem?_map, Option.map_eq_some_iff] at h
  obtain ⟨d, -, rfl⟩ := h
  omega

theorem initial_inv {g w : List Nat} (hw : Pos w) (hl : g.length = w.length) : Inv w (initial g w) where
  rank := by simp [initial]
  rank' := by simp [initial, hl]
  good := by
    intro i f n hf hn
    simp only [initial, List.getElem?_map, hn, Option.map_some, Option.some.injEq] at hf
    subst hf
    obtain ⟨l, e⟩ := findDivisors_cons (hw i n hn)
    exact ⟨List.prefix_refl _, by rw [e]; simp⟩
  total := by
    show w.prod = (shape (initial g w)).prod
    have : shape (initial g w) = w := by
      simp only [shape, initial, List.map_map]
      conv => rhs; rw [← List.map_id w]
      refine List.map_congr_left ?_
      intro n hn
      obtain ⟨i, hi⟩ := List.getElem?_of_mem hn
      simp [top, findDivisors_getLast (hw i n hi)]
    rw [this]

theorem initial_shape {g w : List Nat} (hw : Pos w) : shape (initial g w) = w := by
  simp only [shape, initial, List.map_map]
  conv => rhs; rw [← List.map_id w]
  refine List.map_congr_left ?_
  intro n hn
  obtain ⟨i, hi⟩ := List.getElem?_of_mem hn
  simp [top, findDivisors_getLast (hw i n hi)]

theorem initial_sharded {g w : List Nat} {i a b : Nat} (ha : g[i]? = some a) (hb : w[i]? = some b) :
    (initial g w).sharded[i]? = some (a != b) := by
  simp [initial, List.getElem?_zipWith, ha, hb]

/-- Everything the function does, in one statement: it stops with a fuel bound, and the result is described by
the two phases. -/
theorem choose_spec (fuel : Nat) (g w : List Nat) (itemsize : Nat) (hit : 0 < itemsize) (t : Option Nat) (axes : List Int)
    (hl : g.length = w.length) (hne : ¬ (t = none ∧ axes = []))
    (hax : ∀ a ∈ axes, 0 ≤ a ∧ a < (w.length : Int)) (htgt : ∀ x, t = some x → itemsize ≤ x) :
    (choose fuel g w itemsize t axes = .diverges ∧
      fuel ≤ 2 * ((floor1 w).map fun n => (findDivisors n).length).sum + 2) ∨
    ∃ st1, Inv (floor1 w) st1 ∧ IsBase (floor1 w) axes (shape st1) ∧
      (∀ (i : Nat), (i : Int) ∈ axes → st1.factors[i]? = some [1]) ∧
      (∀ (j : Nat), (j : Int) ∉ axes → st1.sharded[j]? = (initial g (floor1 w)).sharded[j]?) ∧
      (∀ (j : Nat), (initial g (floor1 w)).sharded[j]? = some true → st1.sharded[j]? = some true) ∧
      ((t = none ∧ choose fuel g w itemsize t axes = .ok (shape st1)) ∨
       ∃ x st2, t = some x ∧ Greedy (floor1 w) (x / itemsize) st1 st2 ∧
        choose fuel g w itemsize t axes = .ok (shape st2)) := by
  have hw := floor1_pos w
  have hlw : (floor1 w).length = w.length := by simp [floor1]
  have hinv := initial_inv (g := g) hw (by rw [hlw]; exact hl)
  have hbad : badAxes (w.map fun d => max 1 d).length axes = false := by
    rw [badAxes, List.any_eq_false]
    intro a ha
    have := hax a ha
    simp; omega
  have haxn : ∀ a ∈ axes.map Int.toNat, a < (floor1 w).length := by
    intro a ha
    obtain ⟨b, hb, rfl⟩ := List.mem_map.mp ha
    have := hax b hb
    omega
  have hmem : ∀ i : Nat, i ∈ axes.map Int.toNat ↔ (i : Int) ∈ axes := by
    intro i
    rw [List.mem_map]
    constructor
    · rintro ⟨a, ha, rfl⟩
      rw [Int.toNat_of_nonneg (hax a ha).1]; exact ha
    · intro h; exact ⟨i, h, by simp⟩
  have hsum : ((initial g (floor1 w)).factors.map List.length).sum = ((floor1 w).map fun n => (findDivisors n).length).sum := by
    simp [initial, List.map_map, Function.comp_def]
  unfold choose
  rw [if_neg (by simpa using hl)]
  simp only
  rw [if_neg hne]
  rw [if_neg (by simpa using hbad)]
  change (Out.bind (reduceAxes fuel (axes.map Int.toNat) (initial g (floor1 w))) _ = _ ∧ _) ∨
    ∃ st1, _ ∧ _ ∧ _ ∧ _ ∧ _ ∧ ((_ ∧ Out.bind (reduceAxes fuel (axes.map Int.toNat) (initial g (floor1 w))) _ = _) ∨
      ∃ x st2, _ ∧ _ ∧ Out.bind (reduceAxes fuel (axes.map Int.toNat) (initial g (floor1 w))) _ = _)
  rcases reduceAxes_spec hw fuel (axes.map Int.toNat) _ hinv haxn with ⟨e, hfu⟩ | ⟨st1, e, h1, f1, g1, s1, s1'⟩
  · left
    rw [e]
    exact ⟨rfl, by omega⟩
  · have hbase : IsBase (floor1 w) axes (shape st1) := by
      refine ⟨by simp [shape, h1.rank], ?_⟩
      intro i d hd
      constructor
      · intro hi
        simp [shape, f1 i ((hmem i).mpr hi), top]
      · intro hi
        have := g1 i (fun h => hi ((hmem i).mp h))
        have h0 : (shape st1)[i]? = (shape (initial g (floor1 w)))[i]? := by simp [shape, this]
        rw [h0, initial_shape hw, hd]
    have hones : ∀ i : Nat, (i : Int) ∈ axes → st1.factors[i]? = some [1] := fun i hi => f1 i ((hmem i).mpr hi)
    have hkeep : ∀ j : Nat, (j : Int) ∉ axes → st1.sharded[j]? = (initial g (floor1 w)).sharded[j]? :=
      fun j hj => s1 j (fun h => hj ((hmem j).mp h))
    have hmsr : measure st1 ≤ 2 * ((floor1 w).map fun n => (findDivisors n).length).sum + 1 := by
      have : (st1.factors.map List.length).sum ≤ ((floor1 w).map fun n => (findDivisors n).length).sum := by
        have hlen : st1.factors.map List.length = st1.factors.map List.length := rfl
        have : ∀ (a : List (List Nat)) (b : List Nat), a.length = b.length →
            (∀ (i : Nat) (f : List Nat) (n : Nat), a[i]? = some f → b[i]? = some n → f.length ≤ (findDivisors n).length) →
            (a.map List.length).sum ≤ (b.map fun n => (findDivisors n).length).sum := by
          intro a
          induction a with
          | nil => intro b _ _; simp
          | cons x a ih =>
            intro b hb hle
            cases b with
            | nil => simp at hb
            | cons y b =>
              have h1 := hle 0 x y (by simp) (by simp)
              have h2 := ih b (by simpa using hb) (fun i f n hf hn => hle (i + 1) f n (by simpa using hf) (by simpa using hn))
              simp only [List.map_cons, List.sum_cons]
              omega
        exact this _ _ h1.rank (fun i f n hf hn => (h1.good i f n hf hn).pref.length_le)
      unfold measure
      split <;> omega
    rw [e]
    simp only [Out.bind]
    cases t with
    | none =>
      right
      exact ⟨st1, h1, hbase, hones, hkeep, s1', .inl ⟨rfl, current_spec h1⟩⟩
    | some x =>
      have hx := htgt x rfl
      simp only [fitTarget]
      rw [if_neg (by omega)]
      rcases shardLoop_small (x / itemsize) (axes.map Int.toNat) fuel st1 f1 with e2 | ⟨e2, hfu⟩
      · rw [e2]
        rcases greedy_spec hw (x / itemsize) (Nat.div_pos hx hit) fuel st1 h1 with ⟨e3, hm⟩ | ⟨st2, e3, hg⟩
        · left
          simp only [Out.bind, e3]
          exact ⟨trivial, by omega⟩
        · right
          refine ⟨st1, h1, hbase, hones, hkeep, s1', .inr ⟨x, st2, rfl, hg, ?_⟩⟩
          simp only [Out.bind, e3]
          exact current_spec hg.inv
      · left
        rw [e2]
        exact ⟨rfl, by omega⟩

/-- When the function raises. -/
def Refused (g w : List Nat) (itemsize : Nat) (t : Option Nat) (axes : List Int) : Prop :=
  g.length ≠ w.length ∨
  (¬ (t = none ∧ axes = []) ∧ ((∃ a ∈ axes, a < 0 ∨ (w.length : Int) ≤ a) ∨ ∃ x, t = some x ∧ x < itemsize))

/-- C33: the function stops: there is a bound on the number of loop iterations, given by the number of
divisors of the dimensions. -/
theorem C33_terminates (g w : List Nat) (itemsize : Nat) (hit : 0 < itemsize) (t : Option Nat) (axes : List Int) :
    ∀ fuel, 2 * ((floor1 w).map fun n => (findDivisors n).length).sum + 2 < fuel →
      choose fuel g w itemsize t axes ≠ .diverges := by
  intro fuel hfuel
  by_cases hl : g.length = w.length
  · by_cases hne : t = none ∧ axes = []
    · simp [choose, hl, hne]
    · by_cases hax : ∀ a ∈ axes, 0 ≤ a ∧ a < (w.length : Int)
      · by_cases ht : ∀ x, t = some x → itemsize ≤ x
        · rcases choose_spec fuel g w itemsize hit t axes hl hne hax ht with ⟨-, h⟩ | ⟨st1, -, -, -, -, -, h⟩
          · omega
          · rcases h with ⟨-, h⟩ | ⟨x, st2, -, -, h⟩ <;> rw [h] <;> simp
        · simp only [not_forall] at ht
          obtain ⟨x, rfl, hx⟩ := ht
          have hw := floor1_pos w
          have hlw : (floor1 w).length = w.length := by simp [floor1]
          have hinv := initial_inv (g := g) hw (by rw [hlw]; exact hl)
          have haxn : ∀ a ∈ axes.map Int.toNat, a < (floor1 w).length := by
            intro a ha
            obtain ⟨b, hb, rfl⟩ := List.mem_map.mp ha
            have := hax b hb
            omega
          unfold choose
          rw [if_neg (by simpa using hl)]
          simp only
          rw [if_neg hne]
          split
          · simp
          · change Out.bind (reduceAxes fuel (axes.map Int.toNat) (initial g (floor1 w))) _ ≠ _
            rcases reduceAxes_spec hw fuel (axes.map Int.toNat) _ hinv haxn with ⟨e, hfu⟩ | ⟨st1, e, -⟩
            · have hsum : ((initial g (floor1 w)).factors.map List.length).sum = ((floor1 w).map fun n => (findDivisors n).length).sum := by
                simp [initial, List.map_map, Function.comp_def]
              omega
            · rw [e]
              simp only [Out.bind, fitTarget]
              rw [if_pos (by omega)]
              simp
      · have hany : badAxes (w.map fun d => max 1 d).length axes = true := by
          simp only [not_forall] at hax
          obtain ⟨a, ha, hb⟩ := hax
          rw [badAxes, List.any_eq_true]
          refine ⟨a, ha, ?_⟩
          simp only [List.length_map, Bool.or_eq_true, decide_eq_true_eq]
          omega
        unfold choose
        rw [if_neg (by simpa using hl)]
        simp only
        rw [if_neg hne, if_pos hany]
        simp
  · simp [choose, hl]

/-- C33: with enough fuel, the call raises exactly in the documented cases: ranks differ, an axis out of
range, or a target smaller than one element. -/
theorem C33_error_iff (g w : List Nat) (itemsize : Nat) (hit : 0 < itemsize) (t : Option Nat) (axes : List Int) (fuel : Nat)
    (hfuel : 2 * ((floor1 w).map fun n => (findDivisors n).length).sum + 2 < fuel) :
    choose fuel g w itemsize t axes = .error ↔ Refused g w itemsize t axes := by
  constructor
  · intro h
    by_contra hcon
    simp only [Refused, not_or, not_and, not_exists, not_lt, not_le, ne_eq, not_not] at hcon
    obtain ⟨hl, hr⟩ := hcon
    by_cases hne : t = none ∧ axes = []
    · simp [choose, hl, hne] at h
    · obtain ⟨h1, h2⟩ := hr (fun h1 h2 => hne ⟨h1, h2⟩)
      rcases choose_spec fuel g w itemsize hit t axes hl hne (fun a ha => by have := h1 a ha; omega) h2 with
        ⟨e, -⟩ | ⟨st1, -, -, -, -, -, h'⟩
      · rw [e] at h; cases h
      · rcases h' with ⟨-, h'⟩ | ⟨x, st2, -, -, h'⟩ <;> rw [h'] at h <;> cases h
  · rintro (hl | ⟨hne, hbad⟩)
    · simp [choose, hl]
    · by_cases hl : g.length = w.length
      · by_cases hax : ∀ a ∈ axes, 0 ≤ a ∧ a < (w.length : Int)
        · obtain ⟨x, rfl, hx⟩ : ∃ x, t = some x ∧ x < itemsize := by
            rcases hbad with ⟨a, ha, hb⟩ | h
            · have := hax a ha; omega
            · exact h
          have hw := floor1_pos w
          have hlw : (floor1 w).length = w.length := by simp [floor1]
          have hinv := initial_inv (g := g) hw (by rw [hlw]; exact hl)
          have haxn : ∀ a ∈ axes.map Int.toNat, a < (floor1 w).length := by
            intro a ha
            obtain ⟨b, hb, rfl⟩ := List.mem_map.mp ha
            have := hax b hb
            omega
          unfold choose
          rw [if_neg (by simpa using hl)]
          simp only
          rw [if_neg hne]
          split
          · rfl
          · change Out.bind (reduceAxes fuel (axes.map Int.toNat) (initial g (floor1 w))) _ = _
            rcases reduceAxes_spec hw fuel (axes.map Int.toNat) _ hinv haxn with ⟨e, hfu⟩ | ⟨st1, e, -⟩
            · have hsum : ((initial g (floor1 w)).factors.map List.length).sum = ((floor1 w).map fun n => (findDivisors n).length).sum := by
                simp [initial, List.map_map, Function.comp_def]
              omega
            · rw [e]
              simp only [Out.bind, fitTarget]
              rw [if_pos hx]
        · have hany : badAxes (w.map fun d => max 1 d).length axes = true := by
            simp only [not_forall] at hax
            obtain ⟨a, ha, hb⟩ := hax
            rw [badAxes, List.any_eq_true]
            refine ⟨a, ha, ?_⟩
            simp only [List.length_map, Bool.or_eq_true, decide_eq_true_eq]
            omega
          unfold choose
          rw [if_neg (by simpa using hl)]
          simp only
          rw [if_neg hne, if_pos hany]
      · simp [choose, hl]

/-- A successful call, unpacked. -/
theorem ok_spec {fuel : Nat} {g w : List Nat} {itemsize : Nat} (hit : 0 < itemsize) {t : Option Nat} {axes : List Int}
    {s : List Nat} (h : choose fuel g w itemsize t axes = .ok s) :
    g.length = w.length ∧
    ((t = none ∧ axes = [] ∧ s = floor1 w) ∨
    ∃ st1, Inv (floor1 w) st1 ∧ IsBase (floor1 w) axes (shape st1) ∧
      (∀ (i : Nat), (i : Int) ∈ axes → st1.factors[i]? = some [1]) ∧
      (∀ (j : Nat), (j : Int) ∉ axes → st1.sharded[j]? = (initial g (floor1 w)).sharded[j]?) ∧
      (∀ (j : Nat), (initial g (floor1 w)).sharded[j]? = some true → st1.sharded[j]? = some true) ∧
      (∀ a ∈ axes, 0 ≤ a ∧ a < (w.length : Int)) ∧
      ((t = none ∧ s = shape st1) ∨
       ∃ x st2, t = some x ∧ itemsize ≤ x ∧ Greedy (floor1 w) (x / itemsize) st1 st2 ∧ s = shape st2)) := by
  have hl : g.length = w.length := by
    by_contra hl
    simp [choose, hl] at h
  refine ⟨hl, ?_⟩
  by_cases hne : t = none ∧ axes = []
  · left
    simp [choose, hl, hne] at h
    exact ⟨hne.1, hne.2, h.symm⟩
  · right
    have hax : ∀ a ∈ axes, 0 ≤ a ∧ a < (w.length : Int) := by
      by_contra hax
      have hany : badAxes (w.map fun d => max 1 d).length axes = true := by
        simp only [not_forall] at hax
        obtain ⟨a, ha, hb⟩ := hax
        rw [badAxes, List.any_eq_true]
        refine ⟨a, ha, ?_⟩
        simp only [List.length_map, Bool.or_eq_true, decide_eq_true_eq]
        omega
      unfold choose at h
      rw [if_neg (by simpa using hl)] at h
      simp only at h
      rw [if_neg hne, if_pos hany] at h
      cases h
    have ht : ∀ x, t = some x → itemsize ≤ x := by
      intro x hx
      by_contra hcon
      subst hx
      unfold choose at h
      rw [if_neg (by simpa using hl)] at h
      simp only at h
      rw [if_neg hne] at h
      split at h
      · cases h
      · cases hr : reduceAxes fuel (axes.map Int.toNat) (initial g (w.map fun d => max 1 d)) with
        | ok st1 =>
          rw [hr] at h
          simp only [Out.bind, fitTarget] at h
          rw [if_pos (by omega)] at h
          cases h
        | error => rw [hr] at h; cases h
        | diverges => rw [hr] at h; cases h
    rcases choose_spec fuel g w itemsize hit t axes hl hne hax ht with ⟨e, -⟩ | ⟨st1, a1, a2, a3, a4, a5, a6⟩
    · rw [e] at h; cases h
    · refine ⟨st1, a1, a2, a3, a4, a5, hax, ?_⟩
      rcases a6 with ⟨b1, b2⟩ | ⟨x, st2, b1, b2, b3⟩
      · rw [b2] at h; cases h; exact .inl ⟨b1, rfl⟩
      · rw [b3] at h; cases h; exact .inr ⟨x, st2, b1, ht x b1, b2, rfl⟩

theorem shape_legal {w : List Nat} (hw : Pos w) {st : St} (h : Inv w st) :
    (shape st).length = w.length ∧ ∀ (i d n : Nat), (shape st)[i]? = some d → w[i]? = some n → 0 < d ∧ d ∣ n := by
  refine ⟨by simp [shape, h.rank], ?_⟩
  intro i d n hd hn
  simp only [shape, List.getElem?_map, Option.map_eq_some_iff] at hd
  obtain ⟨f, hf, rfl⟩ := hd
  exact (h.good i f n hf hn).top_dvd (hw i n hn)

/-- C33: the result has the rank of the write shape and each of its dimensions is positive and divides that of
the write shape (zero-sized dimensions counting as 1). -/
theorem C33_divides (fuel : Nat) (g w : List Nat) (itemsize : Nat) (hit : 0 < itemsize) (t : Option Nat) (axes : List Int)
    (s : List Nat) (h : choose fuel g w itemsize t axes = .ok s) :
    s.length = w.length ∧ ∀ (i d n : Nat), s[i]? = some d → w[i]? = some n → 0 < d ∧ d ∣ max 1 n := by
  have hw := floor1_pos w
  have key : s.length = (floor1 w).length ∧ ∀ (i d n : Nat), s[i]? = some d → (floor1 w)[i]? = some n → 0 < d ∧ d ∣ n := by
    rcases (ok_spec hit h).2 with ⟨-, -, rfl⟩ | ⟨st1, a1, -, -, -, -, -, ⟨-, rfl⟩ | ⟨x, st2, -, -, b2, rfl⟩⟩
    · refine ⟨rfl, ?_⟩
      intro i d n hd hn
      rw [hd] at hn; cases hn
      exact ⟨hw i d hd, dvd_refl d⟩
    · exact shape_legal hw a1
    · exact shape_legal hw b2.inv
  refine ⟨by rw [key.1]; simp [floor1], ?_⟩
  intro i d n hd hn
  exact key.2 i d _ hd (by simp [floor1, hn])

/-- C33: the chunk fits in the target number of bytes. -/
theorem C33_fits_target (fuel : Nat) (g w : List Nat) (itemsize : Nat) (hit : 0 < itemsize) (target : Nat)
    (axes : List Int) (s : List Nat) (h : choose fuel g w itemsize (some target) axes = .ok s) :
    s.prod * itemsize ≤ target := by
  rcases (ok_spec hit h).2 with ⟨h1, -⟩ | ⟨st1, -, -, -, -, -, -, ⟨h1, -⟩ | ⟨x, st2, h1, hx, b2, rfl⟩⟩
  · cases h1
  · cases h1
  · cases h1
    have := b2.budget
    rw [b2.inv.total] at this
    exact (Nat.le_div_iff_mul_le hit).mp this

/-- C33: every requested axis is cut, all the way down to 1. -/
theorem C33_shard_axes (fuel : Nat) (g w : List Nat) (itemsize : Nat) (hit : 0 < itemsize) (t : Option Nat) (axes : List Int)
    (s : List Nat) (h : choose fuel g w itemsize t axes = .ok s) :
    ∀ i : Nat, (i : Int) ∈ axes → s[i]? = some 1 := by
  intro i hi
  rcases (ok_spec hit h).2 with ⟨-, h1, -⟩ | ⟨st1, a1, a2, a3, -, -, a6, h'⟩
  · rw [h1] at hi; simp at hi
  · rcases h' with ⟨-, rfl⟩ | ⟨x, st2, -, -, b2, rfl⟩
    · simp [shape, a3 i hi, top]
    · have hlt : i < st2.factors.length := by
        have := a6 _ hi
        rw [b2.inv.rank]; simp [floor1]; omega
      have hf2 : st2.factors[i]? = some st2.factors[i] := by simp [hlt]
      have hpre := b2.le i _ _ (a3 i hi) hf2
      obtain ⟨n, hn, hg⟩ := b2.inv.get hf2
      rcases List.prefix_cons_iff.mp hpre with e | ⟨t', e, ht⟩
      · exact absurd e hg.ne
      · rw [List.prefix_nil.mp ht] at e
        simp [shape, hf2, e, top]

/-- C33: without a target size only the requested axes are cut. -/
theorem C33_no_target (fuel : Nat) (g w : List Nat) (itemsize : Nat) (hit : 0 < itemsize) (axes : List Int)
    (s : List Nat) (h : choose fuel g w itemsize none axes = .ok s) : IsBase (floor1 w) axes s := by
  rcases (ok_spec hit h).2 with ⟨-, h1, rfl⟩ | ⟨st1, -, a2, -, -, -, -, ⟨-, rfl⟩ | ⟨x, st2, h1, -⟩⟩
  · exact ⟨rfl, fun i d hd => ⟨fun hi => by rw [h1] at hi; simp at hi, fun _ => hd⟩⟩
  · exact a2
  · cases h1

/-- C33: the result is not needlessly small: either only the requested axes have been cut, or replacing one
dimension by the next larger divisor of the write shape would exceed the target. -/
theorem C33_not_needlessly_small (fuel : Nat) (g w : List Nat) (itemsize : Nat) (hit : 0 < itemsize) (target : Nat)
    (axes : List Int) (s : List Nat) (h : choose fuel g w itemsize (some target) axes = .ok s) :
    IsBase (floor1 w) axes s ∨
    ∃ (i n d d' : Nat), (floor1 w)[i]? = some n ∧ (i : Int) ∉ axes ∧ s[i]? = some d ∧ d < d' ∧ d' ∣ n ∧
      (∀ e, e ∣ n → d < e → d' ≤ e) ∧ target < (s.set i d').prod * itemsize := by
  have hw := floor1_pos w
  rcases (ok_spec hit h).2 with ⟨h1, -⟩ | ⟨st1, a1, a2, a3, -, -, -, ⟨h1, -⟩ | ⟨x, st2, h1, hx, b2, rfl⟩⟩
  · cases h1
  · cases h1
  · cases h1
    rcases b2.last with hlast | ⟨i, n, gf, q1, q2, q3, q4, ⟨f, q5, q5'⟩, q6⟩
    · left
      have : shape st2 = shape st1 := by simp [shape, hlast]
      rw [this]; exact a2
    · right
      have hn := hw i n q1
      obtain ⟨n1, n2⟩ := q2.next hn q3
      refine ⟨i, n, top gf.dropLast, top gf, q1, ?_, by simp [shape, q4], n1, (q2.top_dvd hn).2, n2, ?_⟩
      · intro hi
        rw [a3 i hi] at q5
        cases q5
        have := q5'.length_le
        simp at this
        omega
      · have := (Nat.div_lt_iff_lt_mul hit).mp q6
        exact this

/-- C33: if the shape with only the requested axes cut already fits, it is the result. -/
theorem C33_kept_if_fits (fuel : Nat) (g w : List Nat) (itemsize : Nat) (hit : 0 < itemsize) (target : Nat)
    (axes : List Int) (s b : List Nat) (h : choose fuel g w itemsize (some target) axes = .ok s)
    (hb : IsBase (floor1 w) axes b) (hfit : b.prod * itemsize ≤ target) : s = b := by
  have hw := floor1_pos w
  have huniq : ∀ s, IsBase (floor1 w) axes s → s = b := by
    intro s hs
    apply List.ext_getElem?
    intro i
    cases hd : (floor1 w)[i]? with
    | none =>
      have := List.getElem?_eq_none_iff.mp hd
      rw [List.getElem?_eq_none_iff.mpr (by rw [hs.1]; exact this), List.getElem?_eq_none_iff.mpr (by rw [hb.1]; exact this)]
    | some d =>
      by_cases hi : (i : Int) ∈ axes
      · rw [(hs.2 i d hd).1 hi, (hb.2 i d hd).1 hi]
      · rw [(hs.2 i d hd).2 hi, (hb.2 i d hd).2 hi]
  rcases (ok_spec hit h).2 with ⟨h1, -⟩ | ⟨st1, a1, a2, a3, -, -, -, ⟨h1, -⟩ | ⟨x, st2, h1, hx, b2, rfl⟩⟩
  · cases h1
  · cases h1
  · cases h1
    have e1 := huniq _ a2
    rcases b2.last with hlast | ⟨i, n, gf, q1, q2, q3, q4, ⟨f, q5, q5'⟩, q6⟩
    · have : shape st2 = shape st1 := by simp [shape, hlast]
      rw [this, e1]
    · exfalso
      -- undoing the last reduction stays below the starting shape, which fits
      have hle : ((shape st2).set i (top gf)).prod ≤ (shape st1).prod := by
        have hlen : (shape st2).length = (shape st1).length := by simp [shape, b2.inv.rank, a1.rank]
        have hpt : ∀ (j a c : Nat), ((shape st2).set i (top gf))[j]? = some a → (shape st1)[j]? = some c → a ≤ c := by
          have mono : ∀ (j : Nat) (f' f : List Nat) (n : Nat), (floor1 w)[j]? = some n → Factors n f' → Factors n f → f' <+: f → top f' ≤ top f := by
            intro j f' f n hj hf' hf hpre
            have hmem : top f' ∈ f := hpre.subset (top_mem hf'.ne)
            have hs := hf.sorted
            rcases List.eq_nil_or_concat f with e | ⟨l, y, e⟩
            · exact absurd e hf.ne
            · have ht : top f = y := by simp [e, top]
              rw [ht]
              rw [e, List.concat_eq_append, List.pairwise_append] at hs
              rw [e, List.concat_eq_append, List.mem_append] at hmem
              rcases hmem with hmem | hmem
              · exact le_of_lt (hs.2.2 _ hmem y (by simp))
              · simp at hmem; omega
          intro j a c ha hc
          by_cases hij : i = j
          · subst hij
            have hlt : i < (shape st2).length := by
              have := (List.getElem?_eq_some_iff.mp q4).1
              simpa [shape] using this
            simp [hlt] at ha
            subst ha
            simp only [shape, List.getElem?_map, q5, Option.map_some, Option.some.injEq] at hc
            subst hc
            exact mono i gf f n q1 q2 (a1.good i f n q5 q1) q5'
          · rw [List.getElem?_set_ne hij] at ha
            simp only [shape, List.getElem?_map, Option.map_eq_some_iff] at ha hc
            obtain ⟨f', hf', rfl⟩ := ha
            obtain ⟨f'', hf'', rfl⟩ := hc
            obtain ⟨m, hm, hg'⟩ := b2.inv.get hf'
            exact mono j f' f'' m hm hg' (a1.good j f'' m hf'' hm) (b2.le j f'' f' hf'' hf')
        have : ∀ (l l' : List Nat), l.length = l'.length → (∀ (j a c : Nat), l[j]? = some a → l'[j]? = some c → a ≤ c) → l.prod ≤ l'.prod := by
          intro l
          induction l with
          | nil =>
            intro l' hl _
            cases l' with
            | nil => simp
            | cons _ _ => simp at hl
          | cons x l ih =>
            intro l' hl hle
            cases l' with
            | nil => simp at hl
            | cons y l' =>
              have h1 := hle 0 x y (by simp) (by simp)
              have h2 := ih l' (by simpa using hl) (fun j a c ha hc => hle (j + 1) a c (by simpa using ha) (by simpa using hc))
              simp only [List.prod_cons]
              exact Nat.mul_le_mul h1 h2
        exact this _ _ (by simp [hlen]) hpt
      rw [e1] at hle
      have h3 := (Nat.le_div_iff_mul_le hit).mpr hfit
      omega

/-- C33: dimensions along which the array is sharded are split first: a dimension that is not sharded and not
requested is cut only if all sharded or requested ones are down to 1. -/
theorem C33_sharded_first (fuel : Nat) (g w : List Nat) (itemsize : Nat) (hit : 0 < itemsize) (t : Option Nat) (axes : List Int)
    (s : List Nat) (h : choose fuel g w itemsize t axes = .ok s) (i n : Nat)
    (hg : g[i]? = some n) (hn : (floor1 w)[i]? = some n) (hi : (i : Int) ∉ axes) (hs : s[i]? ≠ some n)
    (j a b : Nat) (ha : g[j]? = some a) (hb : (floor1 w)[j]? = some b) (hj : a ≠ b ∨ (j : Int) ∈ axes) : s[j]? = some 1 := by
  by_cases hja : (j : Int) ∈ axes
  · exact C33_shard_axes fuel g w itemsize hit t axes s h j hja
  · have hab : a ≠ b := hj.resolve_right hja
    rcases (ok_spec hit h).2 with ⟨-, -, rfl⟩ | ⟨st1, a1, a2, a3, a4, a5, a6, ⟨-, rfl⟩ | ⟨x, st2, -, -, b2, rfl⟩⟩
    · exact absurd hn hs
    · exact absurd ((a2.2 i n hn).2 hi) hs
    · have h1 : st1.sharded[i]? = some false := by
        rw [a4 i hi, initial_sharded hg hn]; simp
      have h2 : st1.sharded[j]? = some true := by
        rw [a4 j hja, initial_sharded ha hb]; simp [hab]
      have h3 : st2.factors[i]? ≠ st1.factors[i]? := by
        intro e
        apply hs
        have := (a2.2 i n hn).2 hi
        rw [← this]
        simp [shape, e]
      have := b2.first i h1 h3 j h2
      simp [shape, this, top]

/-- C33: the result can be used to chunk the written fragment: if the write shape is that of a forward index
with steps 1 and no empty axis, chunking the fragment by the result is accepted. -/
theorem C33_can_chunk_fragment (fuel : Nat) (g : List Nat) (idx : List Tri) (itemsize : Nat) (hit : 0 < itemsize)
    (t : Option Nat) (axes : List Int) (s : List Nat)
    (hf : ∀ x ∈ idx, x.start < x.stop ∧ x.step = 1)
    (h : choose fuel g (idx.map fun x => (x.stop - x.start).toNat) itemsize t axes = .ok s) : Chunkable idx s := by
  obtain ⟨hl, hd⟩ := C33_divides fuel g _ itemsize hit t axes s h
  clear h
  have : ∀ (idx : List Tri) (s : List Nat), (∀ x ∈ idx, x.start < x.stop ∧ x.step = 1) → s.length = idx.length →
      (∀ (i d n : Nat), s[i]? = some d → (idx.map fun x => (x.stop - x.start).toNat)[i]? = some n → 0 < d ∧ d ∣ max 1 n) →
      Chunkable idx s := by
    intro idx
    induction idx with
    | nil => intro s _ hl _; cases s with
      | nil => trivial
      | cons _ _ => simp at hl
    | cons x idx ih =>
      intro s hf hl hd
      cases s with
      | nil => simp at hl
      | cons d s =>
        have hx := hf x (by simp)
        obtain ⟨h1, h2⟩ := hd 0 d _ (by simp) (by simp; rfl)
        refine ⟨⟨by omega, hx.2, h1, ?_⟩, ih s (fun y hy => hf y (by simp [hy])) (by simpa using hl)
          (fun i d n hs hn => hd (i + 1) d n (by simpa using hs) (by simpa using hn))⟩
        have e : max 1 (x.stop - x.start).toNat = (x.stop - x.start).toNat := by omega
        rw [e] at h2
        have := Int.natCast_dvd_natCast.mpr h2
        rwa [Int.toNat_of_nonneg (by omega)] at this
  exact this idx s hf (by simpa using hl) hd

/-- The documentation says the chunk is "otherwise as large as possible"; the greedy choice is not: for a
6 x 5 array and a target of 10 elements it takes 3 x 1, although 2 x 5 divides the shape and fits. -/
theorem C33_as_large_as_possible_fails (itemsize : Nat) (hit : 0 < itemsize) :
    choose 20 [6, 5] [6, 5] itemsize (some (10 * itemsize)) [] = .ok [3, 1] ∧
    (2 * 5) * itemsize ≤ 10 * itemsize ∧ 2 ∣ 6 ∧ 5 ∣ 5 := by
  refine ⟨?_, by omega, by decide, by decide⟩
  unfold choose
  simp only [List.length_cons, List.length_nil, ne_eq, not_true_eq_false, if_false, reduceCtorEq, false_and,
    badAxes, List.any_nil, Bool.false_eq_true, List.map_nil, reduceAxes, Out.bind, fitTarget]
  rw [if_neg (by omega), Nat.mul_div_cancel _ hit]
  decide

/-! ### Non-vacuity -/

-- a 8 x 12 shard of a 16 x 12 array: the sharded dimension is cut first
example : choose 40 [16, 12] [8, 12] 4 (some 100) [] = .ok [2, 12] := by decide
example : Refused [16, 12] [8, 12] 4 (some 3) [] := .inr ⟨by simp, .inr ⟨3, rfl, by decide⟩⟩
example : choose 40 [16, 12] [8, 12] 4 (some 100) [1] = .ok [8, 1] := by decide
example : choose 40 [16, 12] [8, 12] 4 (some 8) [] = .ok [1, 2] := by decide

end Verif.Arrays.ChunkShape
