/-!
# Finite maps as association lists

Python dictionaries and directory listings are modelled by association lists.  `put` overwrites in
place (as Python's `d[k] = v` does, keeping the insertion order) and `del` removes a key.
This file models no file of `/repo` by itself.
-/

namespace Verif.Assoc

variable {κ ν : Type} [DecidableEq κ]

/-- `m.get(k)`. -/
def get (m : List (κ × ν)) (k : κ) : Option ν :=
  match m with
  | [] => none
  | p :: m => if p.1 = k then some p.2 else get m k

/-- `m[k] = v`. -/
def put (m : List (κ × ν)) (k : κ) (v : ν) : List (κ × ν) :=
  match m with
  | [] => [(k, v)]
  | p :: m => if p.1 = k then (k, v) :: m else p :: put m k v

/-- `m.pop(k, None)`. -/
def del (m : List (κ × ν)) (k : κ) : List (κ × ν) := m.filter fun p => decide (p.1 ≠ k)

/-- The keys, in insertion order. -/
def keys (m : List (κ × ν)) : List κ := m.map Prod.fst

@[simp] theorem get_nil (k : κ) : get ([] : List (κ × ν)) k = none := rfl

@[simp] theorem get_put_self (m : List (κ × ν)) (k : κ) (v : ν) : get (put m k v) k = some v := by
  induction m with
  | nil => simp [put, get]
  | cons p m ih => by_cases h : p.1 = k <;> simp [put, get, h, ih]

theorem get_put_ne (m : List (κ × ν)) {k k' : κ} (v : ν) (h : k' ≠ k) :
    get (put m k v) k' = get m k' := by
  induction m with
  | nil => simp [put, get, Ne.symm h]
  | cons p m ih =>
    by_cases hp : p.1 = k
    · subst hp; simp [put, get, Ne.symm h]
    · simp only [put, hp, if_false, get, ih]

@[simp] theorem get_del_self (m : List (κ × ν)) (k : κ) : get (del m k) k = none := by
  induction m with
  | nil => rfl
  | cons p m ih =>
    by_cases hp : p.1 = k
    · simpa [del, hp] using ih
    · have hd : del (p :: m) k = p :: del m k := by simp [del, hp]
      rw [hd]; simp only [get, hp, if_false]; exact ih

theorem get_del_ne (m : List (κ × ν)) {k k' : κ} (h : k' ≠ k) : get (del m k) k' = get m k' := by
  induction m with
  | nil => rfl
  | cons p m ih =>
    by_cases hp : p.1 = k
    · have hd : del (p :: m) k = del m k := by simp [del, hp]
      rw [hd, ih]; subst hp; simp [get, Ne.symm h]
    · have hd : del (p :: m) k = p :: del m k := by simp [del, hp]
      rw [hd]; simp only [get, ih]

theorem get_put (m : List (κ × ν)) (k k' : κ) (v : ν) :
    get (put m k v) k' = if k' = k then some v else get m k' := by
  by_cases h : k' = k
  · subst h; simp
  · simp [h, get_put_ne m v h]

theorem get_del (m : List (κ × ν)) (k k' : κ) :
    get (del m k) k' = if k' = k then none else get m k' := by
  by_cases h : k' = k
  · subst h; simp
  · simp [h, get_del_ne m h]

theorem get_eq_none_iff (m : List (κ × ν)) (k : κ) : get m k = none ↔ k ∉ keys m := by
  induction m with
  | nil => simp [keys]
  | cons p m ih =>
    by_cases hp : p.1 = k
    · simp [get, keys, hp]
    · have hp' : ¬ k = p.1 := fun h => hp h.symm
      simp only [get, hp, if_false, ih, keys, List.map_cons, List.mem_cons, hp', false_or]

theorem mem_keys_iff (m : List (κ × ν)) (k : κ) : k ∈ keys m ↔ ∃ v, get m k = some v := by
  have := get_eq_none_iff m k
  cases h : get m k with
  | none => simp [this.mp h]
  | some v =>
    simp only [Option.some.injEq, exists_eq', iff_true]
    exact Classical.byContradiction fun hn => by rw [this.mpr hn] at h; cases h

theorem mem_of_get (m : List (κ × ν)) (k : κ) (v : ν) (h : get m k = some v) : (k, v) ∈ m := by
  induction m with
  | nil => cases h
  | cons p m ih =>
    by_cases hp : p.1 = k
    · simp only [get, hp, if_true, Option.some.injEq] at h
      subst hp; subst h; simp
    · simp only [get, hp, if_false] at h
      exact List.mem_cons_of_mem _ (ih h)

theorem get_of_mem (m : List (κ × ν)) (hn : (keys m).Nodup) (k : κ) (v : ν) (h : (k, v) ∈ m) :
    get m k = some v := by
  induction m with
  | nil => cases h
  | cons p m ih =>
    simp only [keys, List.map_cons, List.nodup_cons] at hn
    rcases List.mem_cons.mp h with rfl | h
    · simp [get]
    · have : p.1 ≠ k := fun he => hn.1 (he ▸ List.mem_map.mpr ⟨_, h, rfl⟩)
      simp only [get, this, if_false]
      exact ih hn.2 h

theorem keys_del (m : List (κ × ν)) (k : κ) : keys (del m k) = (keys m).filter fun x => decide (x ≠ k) := by
  simp only [keys, del, List.filter_map]; rfl

theorem mem_keys_put (m : List (κ × ν)) (k x : κ) (v : ν) : x ∈ keys (put m k v) ↔ x = k ∨ x ∈ keys m := by
  rw [mem_keys_iff, mem_keys_iff]
  simp only [get_put]
  by_cases h : x = k <;> simp [h]

theorem nodup_put (m : List (κ × ν)) (k : κ) (v : ν) (h : (keys m).Nodup) : (keys (put m k v)).Nodup := by
  induction m with
  | nil => simp [put, keys]
  | cons p m ih =>
    simp only [keys, List.map_cons, List.nodup_cons] at h
    by_cases hp : p.1 = k
    · simp only [put, hp, if_true, keys, List.map_cons, List.nodup_cons]
      exact ⟨hp ▸ h.1, h.2⟩
    · simp only [put, hp, if_false, keys, List.map_cons, List.nodup_cons]
      refine ⟨fun hm => ?_, ih h.2⟩
      rcases (mem_keys_put m k p.1 v).mp hm with h' | h'
      · exact hp h'
      · exact h.1 h'

theorem nodup_del (m : List (κ × ν)) (k : κ) (h : (keys m).Nodup) : (keys (del m k)).Nodup := by
  rw [keys_del]; exact h.filter _

end Verif.Assoc
