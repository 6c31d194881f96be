import Verif.Emergency.Replicator
import Verif.Emergency.MeshProps
import Verif.Assoc

/-! # Lemmas on the replicator manager (C87) -/

namespace Verif.Emergency.Replicator
open Verif Verif.Emergency.Mesh
open Verif.Policies (Ckpt)

section mgr
variable {α β : Type}

theorem mem_insert (i j : Info α) (m : Mgr α) : j ∈ Mgr.insert i m ↔ j = i ∨ j ∈ m := by
  induction m with
  | nil => simp [Mgr.insert]
  | cons a m ih =>
    simp only [Mgr.insert]
    split
    · simp
    · simp only [List.mem_cons, ih]
      constructor
      · rintro (h | h | h) <;> simp [h]
      · rintro (h | h | h) <;> simp [h]

theorem mem_load (j : Info α) (m : Mgr α) : j ∈ Mgr.load m ↔ j ∈ m := by
  induction m with
  | nil => simp [Mgr.load]
  | cons a m ih => simp [Mgr.load, mem_insert, ih]

theorem insert_perm (i : Info α) (m : Mgr α) : (Mgr.insert i m).Perm (i :: m) := by
  induction m with
  | nil => exact .refl _
  | cons a m ih =>
    simp only [Mgr.insert]
    split
    · exact .refl _
    · exact (ih.cons a).trans (.swap _ _ _)

theorem load_perm (m : Mgr α) : (Mgr.load m).Perm m := by
  induction m with
  | nil => exact .refl _
  | cons a m ih => exact (insert_perm _ _).trans (ih.cons a)

theorem mem_trim (j : Info α) (fs : List Bool) (m : Mgr α) (h : j ∈ Mgr.trim fs m) : j ∈ m := by
  induction fs generalizing m with
  | nil => simpa [Mgr.trim] using h
  | cons f fs ih =>
    cases m with
    | nil => simp [Mgr.trim] at h
    | cons i m =>
      simp only [Mgr.trim] at h
      cases f with
      | true =>
        simp only [if_true, List.mem_cons] at h
        rcases h with h | h
        · simp [h]
        · exact List.mem_cons_of_mem _ (ih _ h)
      | false => exact List.mem_cons_of_mem _ (ih _ (by simpa using h))

theorem trim_sublist (fs : List Bool) (m : Mgr α) : List.Sublist (Mgr.trim fs m) m := by
  induction fs generalizing m with
  | nil => simp [Mgr.trim]
  | cons f fs ih =>
    cases m with
    | nil => simp [Mgr.trim]
    | cons i m =>
      simp only [Mgr.trim]
      cases f with
      | true => simpa using ih m
      | false => simpa using (ih m).cons i

/-- The steps of a manager are distinct. -/
def Uniq (m : Mgr α) : Prop := (m.map (·.step)).Nodup

theorem uniq_trim (fs : List Bool) (m : Mgr α) (h : Uniq m) : Uniq (Mgr.trim fs m) := ((trim_sublist fs m).map _).nodup h

theorem uniq_filter (p : Info α → Bool) (m : Mgr α) (h : Uniq m) : Uniq (List.filter p m) := ((List.filter_sublist (p := p)).map _).nodup h

theorem uniq_load (m : Mgr α) (h : Uniq m) : Uniq (Mgr.load m) := (((load_perm m).map _).nodup_iff).2 h

theorem find_mem (m : Mgr α) (s : Int) (x : α) (h : m.find s = some x) : ∃ t, ⟨s, t, x⟩ ∈ m := by
  rw [Mgr.find, Option.map_eq_some_iff] at h
  obtain ⟨i, hi, rfl⟩ := h
  have h1 := List.find?_some hi
  have h2 := List.mem_of_find?_eq_some hi
  refine ⟨i.time, ?_⟩
  have : i.step = s := by simpa using h1
  subst this
  exact h2

theorem find_of_mem (m : Mgr α) (hu : Uniq m) (s t : Int) (x : α) (h : ⟨s, t, x⟩ ∈ m) : m.find s = some x := by
  induction m with
  | nil => simp at h
  | cons a m ih =>
    rcases List.mem_cons.1 h with h | h
    · subst h; simp [Mgr.find]
    · have hu' : a.step ∉ m.map (·.step) ∧ Uniq m := by simpa only [Uniq, List.map_cons, List.nodup_cons] using hu
      have hne : ¬ (a.step == s) = true := by
        intro hc
        have : a.step = s := by simpa using hc
        exact hu'.1 (this ▸ List.mem_map.2 ⟨_, h, rfl⟩)
      have := ih hu'.2 h
      simpa [Mgr.find, List.find?_cons, hne] using this

theorem find_none (m : Mgr α) (s : Int) (h : s ∉ m.steps) : m.find s = none := by
  cases hf : m.find s with
  | none => rfl
  | some x =>
    obtain ⟨t, ht⟩ := find_mem m s x hf
    exact absurd (List.mem_map.2 ⟨_, ht, rfl⟩) h

theorem find_some_of_steps (m : Mgr α) (s : Int) (h : s ∈ m.steps) : ∃ x, m.find s = some x := by
  cases hf : m.find s with
  | some x => exact ⟨x, rfl⟩
  | none =>
    rw [Mgr.find, Option.map_eq_none_iff, List.find?_eq_none] at hf
    obtain ⟨i, hi, rfl⟩ := List.mem_map.1 h
    exact absurd (by simp) (hf i hi)

theorem save_cases (cfg : Cfg) (m : Mgr α) (s t : Int) (f p : Bool) (x : α) :
    m.save cfg s t f p x = some (m, false) ∨ m.save cfg s t f p x = none ∨
    (s ∉ m.steps ∧ ∃ fs, m.save cfg s t f p x = some (Mgr.trim fs (m ++ [⟨s, t, x⟩]), true)) := by
  simp only [Mgr.save]
  split
  · exact .inl rfl
  · split
    · exact .inr (.inl rfl)
    · rename_i h
      exact .inr (.inr ⟨by simpa using h, _, rfl⟩)

theorem uniq_append (m : Mgr α) (hu : Uniq m) (i : Info α) (h : i.step ∉ m.steps) : Uniq (m ++ [i]) := by
  rw [Uniq, List.map_append, List.nodup_append]
  refine ⟨hu, by simp, ?_⟩
  intro a ha b hb
  rintro rfl
  have : a = i.step := by simpa using hb
  exact h (this ▸ ha)

theorem uniq_save (cfg : Cfg) (m : Mgr α) (s t : Int) (f p : Bool) (x : α) (m' : Mgr α) (b : Bool) (hu : Uniq m)
    (h : m.save cfg s t f p x = some (m', b)) : Uniq m' := by
  rcases save_cases cfg m s t f p x with h1 | h1 | ⟨hn, fs, h1⟩
  · rw [h1] at h; cases h; exact hu
  · rw [h1] at h; cases h
  · rw [h1] at h; cases h; exact uniq_trim _ _ (uniq_append _ hu _ hn)

theorem delete_mem (m m' : Mgr α) (s : Int) (h : m.delete s = some m') (i : Info α) : i ∈ m' ↔ i ∈ m ∧ i.step ≠ s := by
  simp only [Mgr.delete] at h
  split at h
  · cases h; simp
  · cases h

theorem uniq_delete (m m' : Mgr α) (s : Int) (h : m.delete s = some m') (hu : Uniq m) : Uniq m' := by
  simp only [Mgr.delete] at h
  split at h
  · cases h; exact uniq_filter _ _ hu
  · cases h

/-! Two managers with the same steps. -/

def Same (a : Mgr α) (b : Mgr β) : Prop := a.map (·.step) = b.map (·.step)

theorem same_trim (fs : List Bool) (a : Mgr α) (b : Mgr β) (h : Same a b) : Same (Mgr.trim fs a) (Mgr.trim fs b) := by
  induction fs generalizing a b with
  | nil => simpa [Mgr.trim, Same] using h
  | cons f fs ih =>
    cases a with
    | nil => cases b with
      | nil => simp [Mgr.trim, Same]
      | cons _ _ => simp [Same] at h
    | cons i a => cases b with
      | nil => simp [Same] at h
      | cons j b =>
        simp only [Same, List.map_cons, List.cons.injEq] at h
        simp only [Mgr.trim]
        cases f with
        | true =>
          simp only [if_true, Same, List.map_cons, List.cons.injEq]
          exact ⟨h.1, ih a b h.2⟩
        | false => simpa using ih a b h.2

theorem same_filter (p : Int → Bool) (a : Mgr α) (b : Mgr β) (h : Same a b) :
    Same (List.filter (fun i => p i.step) a) (List.filter (fun i => p i.step) b) := by
  have e : ∀ {γ : Type} (m : Mgr γ), (List.filter (fun i => p i.step) m).map (·.step) = List.filter p (m.map (·.step)) := by
    intro γ m
    rw [List.filter_map]; rfl
  rw [Same, e, e, h]

theorem same_insert (i : Info α) (j : Info β) (a : Mgr α) (b : Mgr β) (hij : i.step = j.step) (h : Same a b) :
    Same (Mgr.insert i a) (Mgr.insert j b) := by
  induction a generalizing b with
  | nil => cases b with
    | nil => simpa [Mgr.insert, Same] using hij
    | cons _ _ => simp [Same] at h
  | cons x a ih => cases b with
    | nil => simp [Same] at h
    | cons y b =>
      have h' := h
      simp only [Same, List.map_cons, List.cons.injEq] at h
      simp only [Mgr.insert, ← hij, ← h.1]
      split
      · simpa [Same, hij] using h
      · simp only [Same, List.map_cons, List.cons.injEq]
        exact ⟨h.1, ih b h.2⟩

theorem same_load (a : Mgr α) (b : Mgr β) (h : Same a b) : Same (Mgr.load a) (Mgr.load b) := by
  induction a generalizing b with
  | nil => cases b with
    | nil => simp [Mgr.load, Same]
    | cons _ _ => simp [Same] at h
  | cons x a ih => cases b with
    | nil => simp [Same] at h
    | cons y b =>
      simp only [Same, List.map_cons, List.cons.injEq] at h
      exact same_insert _ _ _ _ h.1 (ih b h.2)

theorem same_latest (a : Mgr α) (b : Mgr β) (h : Same a b) : a.latest = b.latest := by
  simp only [Mgr.latest, ← List.getLast?_map]
  rw [show a.map (·.step) = b.map (·.step) from h]

theorem same_shouldSave (cfg : Cfg) (a : Mgr α) (b : Mgr β) (h : Same a b) (s : Int) (p : Bool) :
    a.shouldSave cfg s p = b.shouldSave cfg s p := by
  simp only [Mgr.shouldSave, same_latest a b h, Mgr.steps]
  rw [show a.map (·.step) = b.map (·.step) from h]

theorem same_save (cfg : Cfg) (hk : ∀ l l' : List Ckpt, l.map (·.step) = l'.map (·.step) → cfg.keep l = cfg.keep l')
    (a : Mgr α) (b : Mgr β) (h : Same a b) (s t t' : Int) (f p : Bool) (x : α) (y : β) (a' : Mgr α)
    (hs : a.save cfg s t f p x = some (a', true)) : ∃ b', b.save cfg s t' f p y = some (b', true) ∧ Same a' b' := by
  have hst : a.steps = b.steps := h
  simp only [Mgr.save, same_shouldSave cfg a b h, hst] at hs ⊢
  split at hs
  · cases hs
  · rename_i h1
    rw [if_neg h1]
    split at hs
    · cases hs
    · rename_i h2
      rw [if_neg h2]
      simp only [Option.some.injEq, Prod.mk.injEq, and_true] at hs
      refine ⟨_, rfl, ?_⟩
      rw [← hs]
      have hS : Same (a ++ [⟨s, t, x⟩]) (b ++ [⟨s, t', y⟩]) := by
        simp only [Same, List.map_append, List.map_cons, List.map_nil]
        rw [show a.map (·.step) = b.map (·.step) from h]
      have e := hk ((a ++ [(⟨s, t, x⟩ : Info α)]).map fun i : Info α => (⟨i.step, i.time, none⟩ : Ckpt))
        ((b ++ [(⟨s, t', y⟩ : Info β)]).map fun i : Info β => (⟨i.step, i.time, none⟩ : Ckpt)) (by simp only [List.map_map]; exact hS)
      rw [e]
      exact same_trim _ _ _ hS

end mgr

/-! ### Reading -/

theorem mapM_option_cons {α β : Type} (f : α → Option β) (a : α) (l : List α) :
    (a :: l).mapM f = (f a).bind fun b => (l.mapM f).map fun bs => b :: bs := by
  rw [List.mapM_cons]
  cases f a with
  | none => rfl
  | some b => cases l.mapM f <;> rfl

theorem mapM_iff {α β : Type} (f : α → Option β) (l : List α) (r : List β) :
    l.mapM f = some r ↔ l.map f = r.map some := by
  induction l generalizing r with
  | nil => cases r <;> simp
  | cons a l ih =>
    rw [mapM_option_cons]
    cases ha : f a with
    | none => cases r <;> simp [ha]
    | some b =>
      cases r with
      | nil => cases hl : l.mapM f <;> simp [ha]
      | cons c r =>
        simp only [Option.bind_some, Option.map_eq_some_iff, List.cons.injEq, List.map_cons, ha, Option.some.injEq]
        constructor
        · rintro ⟨x, h1, h2, h3⟩; exact ⟨h2, (ih r).1 (h3 ▸ h1)⟩
        · rintro ⟨h1, h2⟩; exact ⟨r, (ih r).2 h2, h1, rfl⟩

theorem mapM_exists {α β : Type} (f : α → Option β) (l : List α) (h : ∀ a ∈ l, ∃ b, f a = some b) : ∃ r, l.mapM f = some r := by
  induction l with
  | nil => exact ⟨[], rfl⟩
  | cons a l ih =>
    obtain ⟨b, hb⟩ := h a (by simp)
    obtain ⟨r, hr⟩ := ih fun x hx => h x (List.mem_cons_of_mem _ hx)
    exact ⟨b :: r, by rw [mapM_option_cons, hb, hr]; rfl⟩

/-- Whatever is read is what was saved. -/
theorem readShards_store {V : Type} (inc inc' : Inc) (rest : List Nat) (x : Nat → V) (vs : List V)
    (h : readShards inc rest (store inc' x) = some vs) : vs.length = rest.length ∧ ∀ k < rest.length, vs[k]? = some (x k) := by
  rw [readShards, allSome_iff] at h
  have hl : vs.length = rest.length := by simpa using (congrArg List.length h).symm
  refine ⟨hl, fun k hk => ?_⟩
  have h1 := congrArg (fun l => l[k]?) h
  simp only [List.getElem?_map, List.getElem?_zipIdx, List.getElem?_eq_getElem hk,
    List.getElem?_eq_getElem (show k < vs.length by omega), Option.map_some, Option.some.injEq, Nat.zero_add] at h1
  rw [Option.bind_eq_some_iff] at h1
  obtain ⟨hh, -, h2⟩ := h1
  rw [store] at h2
  split at h2
  · rw [List.getElem?_eq_getElem (show k < vs.length by omega)]; exact h2.symm
  · cases h2

theorem get_items {V : Type} (inc : Inc) (items : List (Name × (Nat → V))) (k : Name) :
    Assoc.get ((items.filter fun x => !(x.1 == datasetName)).map fun x => (x.1, store inc x.2)) k =
      if k = datasetName then none else (Assoc.get items k).map (store inc) := by
  induction items with
  | nil => simp
  | cons a items ih =>
    obtain ⟨a, x⟩ := a
    by_cases hd : a = datasetName
    · subst hd
      have : ((datasetName, x) :: items).filter (fun x => !(x.1 == datasetName)) = items.filter fun x => !(x.1 == datasetName) := by
        simp
      rw [this, ih]
      split
      · rfl
      · rename_i hk
        simp [Assoc.get, Ne.symm hk]
    · have : ((a, x) :: items).filter (fun x => !(x.1 == datasetName)) = (a, x) :: items.filter fun x => !(x.1 == datasetName) := by
        simp [hd]
      rw [this, List.map_cons]
      by_cases hk : a = k
      · subst hk
        simp [Assoc.get, hd]
      · simp only [Assoc.get, hk, if_false]
        exact ih

end Verif.Emergency.Replicator
