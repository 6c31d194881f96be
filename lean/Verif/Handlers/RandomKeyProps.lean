import Verif.Handlers.RandomKey

/-!
# C103: a random key is restored as the same key
-/

namespace Verif.Handlers.RandomKeyProps

open Verif.Handlers.RandomKey

/-! ### Specification -/

/-- The array can be the data of keys of an implementation. -/
def DataOf (j : Jax) (impl : Nat) (a : Arr) : Prop := a.uint32 = true ∧ ∃ batch, a.shape = batch ++ j.keyShape impl

mutual
/-- There is no tuple in the tree. -/
def NoTuple : Tree → Prop
  | .leaf _ => True
  | .tuple _ => False
  | .list ts => NoTuples ts
  | .dict fs => NoTupleFields fs
def NoTuples : Trees → Prop
  | .nil => True
  | .cons t r => NoTuple t ∧ NoTuples r
def NoTupleFields : Fields → Prop
  | .nil => True
  | .cons _ t r => NoTuple t ∧ NoTupleFields r
end

/-! ### Lemmas -/

theorem fits_iff (j : Jax) (a : Arr) : fits j a = true ↔ DataOf j j.dflt a := by
  simp only [fits, DataOf, Bool.and_eq_true, List.isSuffixOf_iff_suffix]
  constructor
  · rintro ⟨h, t, ht⟩; exact ⟨h, t, ht.symm⟩
  · rintro ⟨h, t, ht⟩; exact ⟨h, t, ht.symm⟩

theorem flag_read (name : String) (b : Bool) : ∃ d, flag name b = some d ∧ readFlag name d = .ok b := by
  refine ⟨.obj (.cons name (.bool b) .nil), rfl, ?_⟩
  simp [readFlag, Json.loads, Json.loadsObj, Json.Dict.set]

mutual
theorem plain_noTuple (t : Tree) (h : NoTuple t) : plain t = t := by
  match t with
  | .leaf x => rfl
  | .tuple ts => exact absurd h (by simp [NoTuple])
  | .list ts => simp only [NoTuple] at h; simp only [plain, plainAll_noTuple ts h]
  | .dict fs => simp only [NoTuple] at h; simp only [plain, plainFields_noTuple fs h]
theorem plainAll_noTuple (ts : Trees) (h : NoTuples ts) : plainAll ts = ts := by
  match ts with
  | .nil => rfl
  | .cons t r => simp only [NoTuples] at h; simp only [plainAll, plain_noTuple t h.1, plainAll_noTuple r h.2]
theorem plainFields_noTuple (fs : Fields) (h : NoTupleFields fs) : plainFields fs = fs := by
  match fs with
  | .nil => rfl
  | .cons k t r => simp only [NoTupleFields] at h; simp only [plainFields, plain_noTuple t h.1, plainFields_noTuple r h.2]
end

mutual
theorem noTuple_plain (t : Tree) : NoTuple (plain t) := by
  match t with
  | .leaf x => simp [plain, NoTuple]
  | .tuple ts => simp only [plain, NoTuple]; exact noTuples_plain ts
  | .list ts => simp only [plain, NoTuple]; exact noTuples_plain ts
  | .dict fs => simp only [plain, NoTuple]; exact noTupleFields_plain fs
theorem noTuples_plain (ts : Trees) : NoTuples (plainAll ts) := by
  match ts with
  | .nil => simp [plainAll, NoTuples]
  | .cons t r => simp only [plainAll, NoTuples]; exact ⟨noTuple_plain t, noTuples_plain r⟩
theorem noTupleFields_plain (fs : Fields) : NoTupleFields (plainFields fs) := by
  match fs with
  | .nil => simp [plainFields, NoTupleFields]
  | .cons k t r => simp only [plainFields, NoTupleFields]; exact ⟨noTuple_plain t, noTupleFields_plain r⟩
end

/-! ### JAX keys -/

/-- C103: a raw key is accepted exactly if it can be the data of keys of the default implementation, and comes back as
it was, whatever the default implementation is at that time. -/
theorem C103_raw (j j' : Jax) (a : Arr) :
    ((∃ s, saveJax j (.raw a) = .ok s) ↔ DataOf j j.dflt a) ∧
    (∀ s, saveJax j (.raw a) = .ok s → restoreJax j' s = .ok (.raw a)) := by
  obtain ⟨d, h1, h2⟩ := flag_read "typed" false
  by_cases hf : fits j a = true
  · have hs : saveJax j (.raw a) = .ok ⟨a, d⟩ := by simp [saveJax, keyData, hf, Except.bind, h1]
    refine ⟨⟨fun _ => (fits_iff j a).1 hf, fun _ => ⟨_, hs⟩⟩, ?_⟩
    intro s h
    rw [hs] at h; cases h
    simp [restoreJax, h2, Except.bind]
  · have hs : saveJax j (.raw a) = .error .typeError := by simp [saveJax, keyData, hf, Except.bind]
    refine ⟨⟨?_, fun h => absurd ((fits_iff j a).2 h) hf⟩, ?_⟩
    · rintro ⟨s, h⟩; rw [hs] at h; cases h
    · intro s h; rw [hs] at h; cases h

/-- C103 (part): keys with a type are restored as they were if their implementation is the default one when they are
saved and when they are restored. Missing: keys of other implementations, see `C103_other_implementation_fails`. -/
theorem C103_typed_partial (j : Jax) (a : Arr) (ha : DataOf j j.dflt a) :
    ∃ s, saveJax j (.typed j.dflt a) = .ok s ∧
      ∀ j' : Jax, j'.dflt = j.dflt → j'.keyShape = j.keyShape → restoreJax j' s = .ok (.typed j.dflt a) := by
  obtain ⟨d, h1, h2⟩ := flag_read "typed" true
  have hf := (fits_iff j a).2 ha
  refine ⟨⟨a, d⟩, by simp [saveJax, keyData, hf, Except.bind, h1], ?_⟩
  intro j' e1 e2
  have hf' : fits j' a = true := by simpa [fits, e1, e2] using hf
  simp [restoreJax, h2, Except.bind, wrapKeyData, hf', e1]

/-- C103 (finding): the implementation of a key is not saved. A key of another implementation whose data has the same
shape (`rbg` and `unsafe_rbg`) is accepted and silently comes back as a key of the default implementation: another
sequence of random numbers. -/
theorem C103_other_implementation_fails (j : Jax) (i : Nat) (hi : i ≠ j.dflt) (a : Arr) (ha : DataOf j i a)
    (hs : j.keyShape i = j.keyShape j.dflt) :
    ∃ s, saveJax j (.typed i a) = .ok s ∧ restoreJax j s = .ok (.typed j.dflt a) ∧ Item.typed j.dflt a ≠ .typed i a := by
  obtain ⟨d, h1, h2⟩ := flag_read "typed" true
  have hf : fits j a = true := (fits_iff j a).2 ⟨ha.1, by rw [← hs]; exact ha.2⟩
  refine ⟨⟨a, d⟩, by simp [saveJax, keyData, hf, Except.bind, h1], by simp [restoreJax, h2, Except.bind, wrapKeyData, hf], ?_⟩
  intro e; cases e; exact hi rfl

/-- C103 (finding): a key of an implementation whose key shape has another length in the last dimension than the default
one (`rbg` when the default is `threefry2x32`) cannot be saved, because its data is checked as if it were a raw key. -/
theorem C103_other_shape_fails (j : Jax) (i m n : Nat) (a : Arr) (ha : DataOf j i a) (hi : j.keyShape i = [m])
    (hd : j.keyShape j.dflt = [n]) (hmn : m ≠ n) : saveJax j (.typed i a) = .error .typeError := by
  have hf : fits j a = false := by
    rw [← Bool.not_eq_true, fits_iff]
    rintro ⟨_, b, hb⟩
    obtain ⟨_, b', hb'⟩ := ha
    rw [hb, hi, hd] at hb'
    have := congrArg List.getLast? hb'
    simp at this
    exact hmn this.symm
  simp [saveJax, keyData, hf, Except.bind]

/-- C103 (finding): if the default implementation is another one when the key is restored, the key changes or cannot be
restored; it is never the same key. -/
theorem C103_default_changed_fails (j j' : Jax) (hj : j'.dflt ≠ j.dflt) (a : Arr) (s : Saved Arr)
    (hs : saveJax j (.typed j.dflt a) = .ok s) : restoreJax j' s ≠ .ok (.typed j.dflt a) := by
  obtain ⟨d, h1, h2⟩ := flag_read "typed" true
  by_cases hf : fits j a = true
  · have he : saveJax j (.typed j.dflt a) = .ok ⟨a, d⟩ := by simp [saveJax, keyData, hf, Except.bind, h1]
    rw [he] at hs; cases hs
    intro h
    simp only [restoreJax, h2, Except.bind, if_true, wrapKeyData] at h
    split at h
    · simp only [Except.ok.injEq, Item.typed.injEq] at h; exact hj h.1
    · cases h
  · have he : saveJax j (.typed j.dflt a) = .error .typeError := by simp [saveJax, keyData, hf, Except.bind]
    rw [he] at hs; cases hs

/-- C103: other objects are refused. -/
theorem C103_refused (j : Jax) : saveJax j .other = .error .typeError := rfl

/-! ### NumPy keys -/

/-- C103: tuples and dictionaries of a NumPy generator are accepted, other trees refused. A tuple comes back as the same
tuple and a dictionary as the same dictionary exactly if there are no tuples within. -/
theorem C103_numpy (t : Tree) :
    ((∃ s, saveNumpy t = .ok s) ↔ (∃ ts, t = .tuple ts) ∨ ∃ fs, t = .dict fs) ∧
    (∀ ts, t = .tuple ts → ∀ s, saveNumpy t = .ok s → (restoreNumpy s = .ok t ↔ NoTuples ts)) ∧
    (∀ fs, t = .dict fs → ∀ s, saveNumpy t = .ok s → (restoreNumpy s = .ok t ↔ NoTupleFields fs)) := by
  refine ⟨⟨?_, ?_⟩, ?_, ?_⟩
  · rintro ⟨s, h⟩
    cases t with
    | leaf x => simp [saveNumpy, Except.bind] at h
    | tuple ts => exact .inl ⟨ts, rfl⟩
    | list ts => simp [saveNumpy, Except.bind] at h
    | dict fs => exact .inr ⟨fs, rfl⟩
  · rintro (⟨ts, rfl⟩ | ⟨fs, rfl⟩)
    · obtain ⟨d, h1, _⟩ := flag_read "legacy" true
      exact ⟨⟨_, d⟩, by simp [saveNumpy, Except.bind, h1] <;> rfl⟩
    · obtain ⟨d, h1, _⟩ := flag_read "legacy" false
      exact ⟨⟨_, d⟩, by simp [saveNumpy, Except.bind, h1] <;> rfl⟩
  · rintro ts rfl s h
    obtain ⟨d, h1, h2⟩ := flag_read "legacy" true
    simp only [saveNumpy, Except.bind, h1, Except.ok.injEq] at h
    subst h
    simp only [restoreNumpy, h2, Except.bind, if_true, plain, toTuple, Except.ok.injEq, Tree.tuple.injEq]
    exact ⟨fun e => e ▸ noTuples_plain ts, plainAll_noTuple ts⟩
  · rintro fs rfl s h
    obtain ⟨d, h1, h2⟩ := flag_read "legacy" false
    simp only [saveNumpy, Except.bind, h1, Except.ok.injEq] at h
    subst h
    simp only [restoreNumpy, h2, Except.bind, Bool.false_eq_true, if_false, plain, Except.ok.injEq, Tree.dict.injEq]
    exact ⟨fun e => e ▸ noTupleFields_plain fs, plainFields_noTuple fs⟩

/-- C103: with `threefry2x32` (shape 2) as the default and `rbg`, `unsafe_rbg` (shape 4): a batch of three typed keys
meets the hypotheses; a key of `rbg` meets those of the findings; the state of a NumPy generator those of the last
theorem. -/
theorem C103_nonvacuous :
    let j : Jax := ⟨fun i => if i = 0 then [2] else [4], 0⟩
    let k : Jax := ⟨fun i => if i = 0 then [2] else [4], 1⟩
    DataOf j j.dflt ⟨[3, 2], true, [1, 2, 3, 4, 5, 6]⟩ ∧ DataOf j 1 ⟨[4], true, [1, 2, 3, 4]⟩ ∧
    k.keyShape 2 = k.keyShape k.dflt ∧ DataOf k 2 ⟨[4], true, [1, 2, 3, 4]⟩ ∧
    NoTuples (.cons (.leaf 0) (.cons (.leaf 1) .nil)) ∧
    ¬ DataOf j j.dflt ⟨[3], true, [1, 2, 3]⟩ := by
  refine ⟨⟨rfl, [3], rfl⟩, ⟨rfl, [], rfl⟩, rfl, ⟨rfl, [], rfl⟩, ⟨trivial, trivial, trivial⟩, ?_⟩
  rw [← fits_iff]; decide

end Verif.Handlers.RandomKeyProps
