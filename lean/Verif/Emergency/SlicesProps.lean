import Verif.Emergency.Slices

/-!
# What the multislice emergency manager guarantees (C73)

The processes of a mesh are regular if each of them has all its `L` devices in one replica.
-/
namespace Verif.Emergency.Slices
open Verif.Assoc

/-! ## Exchanging data -/

theorem foldl_max_ge (l : List Nat) (a : Nat) : a ≤ l.foldl max a ∧ ∀ x ∈ l, x ≤ l.foldl max a := by
  induction l generalizing a with
  | nil => simp
  | cons y l ih =>
    obtain ⟨h1, h2⟩ := ih (max a y)
    refine ⟨by simp only [List.foldl_cons]; omega, ?_⟩
    intro x hx
    rcases List.mem_cons.1 hx with rfl | hx
    · simp only [List.foldl_cons]; omega
    · exact h2 x hx

/-- C73: every process receives exactly what every process sent, whatever the lengths. -/
theorem C73_exchange (data : List (List Nat)) : exchange data = data := by
  simp only [exchange, List.zip_map', List.map_map]
  conv => rhs; rw [← List.map_id data]
  apply List.map_congr_left
  intro b hb
  have := (foldl_max_ge (data.map List.length) 0).2 b.length (List.mem_map.2 ⟨b, hb, rfl⟩)
  simp only [Function.comp, id, List.take_take, Nat.min_eq_left this]
  simp

/-! ## Complete steps -/

theorem sum_count (P row : List Nat) (hP : P.Nodup) (h : ∀ x ∈ row, x ∈ P) :
    (P.map fun p => row.count p).sum = row.length := by
  induction row with
  | nil =>
    clear hP h
    induction P with
    | nil => rfl
    | cons p P ih =>
      rw [List.map_cons, List.sum_cons, ih]
      simp
  | cons x row ih =>
    have ih' := ih (fun y hy => h y (List.mem_cons_of_mem _ hy))
    have hx := h x (by simp)
    have key : ∀ (Q : List Nat), Q.Nodup →
        (Q.map fun p => (x :: row).count p).sum =
        (Q.map fun p => row.count p).sum + if x ∈ Q then 1 else 0 := by
      intro Q
      induction Q with
      | nil => intro _; simp
      | cons q Q ihQ =>
        intro hQ
        rw [List.nodup_cons] at hQ
        have := ihQ hQ.2
        rw [List.map_cons, List.sum_cons, this, List.map_cons, List.sum_cons, List.count_cons]
        simp only [List.mem_cons]
        by_cases hxq : x = q
        · subst hxq
          simp only [hQ.1, if_false, beq_self_eq_true, if_true, true_or]
          omega
        · have hb : (x == q) = false := by simpa using hxq
          simp only [hb, hxq, false_or, Bool.false_eq_true, if_false]
          omega
    rw [key P hP, ih', if_pos hx, List.length_cons]

theorem perReplica_get (mesh : Mesh) (vals : List (Nat × List Nat)) (r : Option Nat) :
    (Assoc.get (perReplica mesh vals) r).getD [] =
      (vals.filter fun e => processReplica mesh e.1 = r).flatMap fun e => e.2 := by
  suffices h : ∀ (l : List (Nat × List Nat)) (m : List (Option Nat × List Nat)),
      (Assoc.get (l.foldl (fun m e => put m (processReplica mesh e.1)
        ((Assoc.get m (processReplica mesh e.1)).getD [] ++ e.2)) m) r).getD [] =
      (Assoc.get m r).getD [] ++ (l.filter fun e => processReplica mesh e.1 = r).flatMap
        fun e => e.2 by
    simpa [perReplica] using h vals []
  intro l
  induction l with
  | nil => intro m; simp
  | cons e l ih =>
    intro m
    rw [List.foldl_cons, ih, get_put]
    by_cases hr : processReplica mesh e.1 = r
    · subst hr
      simp
    · have : ¬ r = processReplica mesh e.1 := fun h => hr h.symm
      simp [this, hr]

theorem perReplica_keys (mesh : Mesh) (vals : List (Nat × List Nat)) :
    (keys (perReplica mesh vals)).Nodup := by
  suffices h : ∀ (l : List (Nat × List Nat)) (m : List (Option Nat × List Nat)),
      (keys m).Nodup → (keys (l.foldl (fun m e => put m (processReplica mesh e.1)
        ((Assoc.get m (processReplica mesh e.1)).getD [] ++ e.2)) m)).Nodup by
    exact h vals [] List.nodup_nil
  intro l
  induction l with
  | nil => exact fun m h => h
  | cons e l ih => exact fun m h => ih _ (nodup_put _ _ _ h)

theorem count_flatMap (s : Nat) : ∀ (vals : List (Nat × List Nat)), (∀ e ∈ vals, e.2.Nodup) →
    (vals.flatMap fun e => e.2).count s = vals.countP fun e => e.2.contains s
  | [], _ => rfl
  | e :: vals, h => by
    rw [List.flatMap_cons, List.count_append, count_flatMap s vals
      (fun x hx => h x (List.mem_cons_of_mem _ hx)), List.countP_cons]
    by_cases hs : s ∈ e.2
    · have : e.2.count s = 1 := by
        rw [List.Nodup.count (h e (by simp)), if_pos hs]
      simp [hs, this]; omega
    · simp [hs, List.count_eq_zero.2 hs]

/-- Regular meshes. -/
structure Regular (mesh : Mesh) (L D : Nat) : Prop where
  pos : 0 < L
  dpos : 0 < D
  width : ∀ row ∈ mesh, row.length = D
  devices : ∀ row ∈ mesh, ∀ p ∈ row, row.count p = L
  one : ∀ (i j : Nat) (a b : List Nat), mesh[i]? = some a → mesh[j]? = some b →
    ∀ p ∈ a, p ∈ b → i = j

theorem processReplica_some (mesh : Mesh) (L D : Nat) (h : Regular mesh L D) (r : Nat)
    (row : List Nat) (hr : mesh[r]? = some row) (p : Nat) :
    processReplica mesh p = some r ↔ p ∈ row := by
  unfold processReplica
  constructor
  · intro hf
    have hlt := List.findIdx?_eq_some_iff_getElem.1 hf
    obtain ⟨hlt, h1, -⟩ := hlt
    rw [List.getElem?_eq_getElem hlt] at hr
    cases hr
    simpa using h1
  · intro hp
    cases hf : mesh.findIdx? fun row => row.contains p with
    | none =>
      rw [List.findIdx?_eq_none_iff] at hf
      have := hf row (List.mem_of_getElem? hr)
      simp [hp] at this
    | some i =>
      obtain ⟨hlt, h1, -⟩ := List.findIdx?_eq_some_iff_getElem.1 hf
      rw [h.one i r mesh[i] row (List.getElem?_eq_getElem hlt) hr p (by simpa using h1) hp]

theorem total_length (D : Nat) : ∀ (mesh : Mesh), (∀ row ∈ mesh, row.length = D) →
    mesh.flatten.length = mesh.length * D
  | [], _ => by simp
  | row :: mesh, h => by
    rw [List.flatten_cons, List.length_append, total_length D mesh
      (fun x hx => h x (List.mem_cons_of_mem _ hx)), h row (by simp), List.length_cons,
      Nat.add_mul]
    omega

/-- The processes of a replica, counted. -/
theorem processes_count (mesh : Mesh) (L D : Nat) (h : Regular mesh L D) (r : Nat) (row : List Nat)
    (hr : mesh[r]? = some row) (vals : List (Nat × List Nat)) (hn : (keys vals).Nodup)
    (hall : ∀ p ∈ row, p ∈ keys vals) :
    (vals.filter fun e => processReplica mesh e.1 = some r).length =
      processesPerReplica mesh L := by
  have hrow := List.mem_of_getElem? hr
  have hfil : ((vals.filter fun e => processReplica mesh e.1 = some r).map Prod.fst).Nodup := by
    apply List.Nodup.sublist _ hn
    exact (List.filter_sublist).map _
  have hsum := sum_count _ row hfil (by
    intro x hx
    obtain ⟨e, he, rfl⟩ := List.mem_map.1 (hall x hx)
    apply List.mem_map.2
    refine ⟨e, ?_, rfl⟩
    rw [List.mem_filter]
    exact ⟨he, by simpa using (processReplica_some mesh L D h r row hr e.1).2 hx⟩)
  have hL : ((vals.filter fun e => processReplica mesh e.1 = some r).map Prod.fst).map
      (fun p => row.count p) =
      List.replicate (vals.filter fun e => processReplica mesh e.1 = some r).length L := by
    rw [List.map_map, List.eq_replicate_iff]
    refine ⟨by simp, ?_⟩
    intro x hx
    obtain ⟨e, he, rfl⟩ := List.mem_map.1 hx
    obtain ⟨-, he2⟩ := List.mem_filter.1 he
    exact h.devices row hrow e.1
      ((processReplica_some mesh L D h r row hr e.1).1 (by simpa using he2))
  rw [hL, List.sum_replicate_nat, h.width row hrow] at hsum
  have hm : 0 < mesh.length := List.length_pos_of_mem hrow
  rw [processesPerReplica, total_length D mesh h.width, Nat.mul_div_cancel_left _ hm, ← hsum,
    Nat.mul_div_cancel _ h.pos]

theorem commonValues_entry (mesh : Mesh) (L : Nat) (vals : List (Nat × List Nat)) (r : Option Nat)
    (vs : List Nat) (he : (r, vs) ∈ commonValues mesh L vals) (s : Nat) :
    s ∈ vs ↔ s ∈ (vals.filter fun e => processReplica mesh e.1 = r).flatMap (fun e => e.2) ∧
      ((vals.filter fun e => processReplica mesh e.1 = r).flatMap fun e => e.2).count s =
        processesPerReplica mesh L := by
  obtain ⟨⟨r', ws⟩, hw, hx⟩ := List.mem_map.1 he
  simp only [Prod.mk.injEq] at hx
  obtain ⟨rfl, rfl⟩ := hx
  have hg := get_of_mem _ (perReplica_keys mesh vals) r' ws hw
  have := perReplica_get mesh vals r'
  rw [hg, Option.getD_some] at this
  rw [List.mem_filter, ← this]
  simp

theorem commonValues_keys (mesh : Mesh) (L : Nat) (vals : List (Nat × List Nat)) (r : Option Nat)
    (e : Nat × List Nat) (he : e ∈ vals) (hr : processReplica mesh e.1 = r) :
    ∃ vs, (r, vs) ∈ commonValues mesh L vals := by
  have hk : r ∈ keys (perReplica mesh vals) := by
    suffices h : ∀ (l : List (Nat × List Nat)) (m : List (Option Nat × List Nat)),
        (e ∈ l ∨ r ∈ keys m) → r ∈ keys (l.foldl (fun m e => put m (processReplica mesh e.1)
          ((Assoc.get m (processReplica mesh e.1)).getD [] ++ e.2)) m) by
      exact h vals [] (Or.inl he)
    intro l
    induction l with
    | nil =>
      rintro m (h | h)
      · cases h
      · exact h
    | cons x l ih =>
      rintro m (h | h)
      · rcases List.mem_cons.1 h with rfl | h
        · exact ih _ (Or.inr ((mem_keys_put _ _ _ _).2 (Or.inl hr.symm)))
        · exact ih _ (Or.inl h)
      · exact ih _ (Or.inr ((mem_keys_put _ _ _ _).2 (Or.inr h)))
  obtain ⟨v, hv⟩ := (mem_keys_iff _ _).1 hk
  exact ⟨_, List.mem_map.2 ⟨(r, v), mem_of_get _ _ _ hv, rfl⟩⟩

/-- C73: for a regular mesh, a step is reported for a replica exactly when every process of the
replica has it. -/
theorem C73_complete_iff (mesh : Mesh) (L D : Nat) (h : Regular mesh L D)
    (vals : List (Nat × List Nat)) (hn : (vals.map Prod.fst).Nodup)
    (hsets : ∀ e ∈ vals, e.2.Nodup) (r : Nat) (row : List Nat) (hr : mesh[r]? = some row)
    (hall : ∀ p ∈ row, p ∈ vals.map Prod.fst) (step : Nat) :
    (∃ vs, (some r, vs) ∈ commonValues mesh L vals ∧ step ∈ vs) ↔
      ∀ e ∈ vals, e.1 ∈ row → step ∈ e.2 := by
  have hcnt := processes_count mesh L D h r row hr vals hn hall
  have hfs : ∀ e ∈ vals.filter fun e => processReplica mesh e.1 = some r, e.2.Nodup :=
    fun e he => hsets e (List.mem_filter.1 he).1
  have hiff : ((vals.filter fun e => processReplica mesh e.1 = some r).flatMap
      fun e => e.2).count step = processesPerReplica mesh L ↔
      ∀ e ∈ vals, e.1 ∈ row → step ∈ e.2 := by
    rw [count_flatMap step _ hfs, ← hcnt, List.countP_eq_length]
    constructor
    · intro ha e he hp
      have := ha e (List.mem_filter.2 ⟨he, by
        simpa using (processReplica_some mesh L D h r row hr e.1).2 hp⟩)
      simpa using this
    · intro ha e he
      obtain ⟨he1, he2⟩ := List.mem_filter.1 he
      simpa using ha e he1 ((processReplica_some mesh L D h r row hr e.1).1 (by simpa using he2))
  constructor
  · rintro ⟨vs, hv, hs⟩
    exact hiff.1 ((commonValues_entry mesh L vals (some r) vs hv step).1 hs).2
  · intro ha
    have hrow := List.mem_of_getElem? hr
    have hne : row ≠ [] := by
      intro h0
      have := h.width row hrow
      rw [h0] at this
      have := h.dpos
      simp at *
      omega
    obtain ⟨p, hp⟩ := List.exists_mem_of_ne_nil _ hne
    obtain ⟨e, he, rfl⟩ := List.mem_map.1 (hall p hp)
    have hrep := (processReplica_some mesh L D h r row hr e.1).2 hp
    obtain ⟨vs, hvs⟩ := commonValues_keys mesh L vals (some r) e he hrep
    refine ⟨vs, hvs, (commonValues_entry mesh L vals (some r) vs hvs step).2 ⟨?_, hiff.2 ha⟩⟩
    rw [List.mem_flatMap]
    exact ⟨e, List.mem_filter.2 ⟨he, by simpa using hrep⟩, ha e he hp⟩

/-! ## Listing and restoring -/

/-- The processes that report are those of the mesh. -/
structure Reports (mesh : Mesh) (s : Store) : Prop where
  nodup : (s.locals.map Prod.fst).Nodup
  sets : ∀ e ∈ s.locals, e.2.Nodup
  all : ∀ row ∈ mesh, ∀ p ∈ row, p ∈ s.locals.map Prod.fst
  only : ∀ e ∈ s.locals, ∃ row ∈ mesh, e.1 ∈ row

/-- A step is complete in a slice. -/
def CompleteIn (mesh : Mesh) (s : Store) (r step : Nat) : Prop :=
  ∃ row, mesh[r]? = some row ∧ ∀ e ∈ s.locals, e.1 ∈ row → step ∈ e.2

theorem commonValues_replica (mesh : Mesh) (L D : Nat) (h : Regular mesh L D) (s : Store)
    (hs : Reports mesh s) (r : Option Nat) (vs : List Nat)
    (he : (r, vs) ∈ commonValues mesh L s.locals) :
    ∃ i row, r = some i ∧ mesh[i]? = some row := by
  obtain ⟨⟨r', ws⟩, hw, hx⟩ := List.mem_map.1 he
  simp only [Prod.mk.injEq] at hx
  obtain ⟨rfl, -⟩ := hx
  have hk : r' ∈ keys (perReplica mesh s.locals) := List.mem_map.2 ⟨_, hw, rfl⟩
  have : ∀ (l : List (Nat × List Nat)) (m : List (Option Nat × List Nat)),
      r' ∈ keys (l.foldl (fun m e => put m (processReplica mesh e.1)
          ((Assoc.get m (processReplica mesh e.1)).getD [] ++ e.2)) m) →
      (∃ e ∈ l, processReplica mesh e.1 = r') ∨ r' ∈ keys m := by
    intro l
    induction l with
    | nil => exact fun m h => Or.inr h
    | cons x l ih =>
      intro m hm
      rcases ih _ hm with ⟨e, he, hr⟩ | hm
      · exact Or.inl ⟨e, List.mem_cons_of_mem _ he, hr⟩
      · rcases (mem_keys_put _ _ _ _).1 hm with hm | hm
        · exact Or.inl ⟨x, by simp, hm.symm⟩
        · exact Or.inr hm
  rcases this s.locals [] hk with ⟨e, he, hr⟩ | h0
  · obtain ⟨row, hrow, hp⟩ := hs.only e he
    obtain ⟨i, hi⟩ := List.mem_iff_getElem?.1 hrow
    have := (processReplica_some mesh L D h i row hi e.1).2 hp
    exact ⟨i, row, by rw [← hr, this], hi⟩
  · simp [keys] at h0

theorem localSteps_iff (mesh : Mesh) (L D : Nat) (h : Regular mesh L D) (s : Store)
    (hs : Reports mesh s) (step : Nat) :
    step ∈ localSteps mesh L s ↔ ∃ r, CompleteIn mesh s r step := by
  unfold localSteps
  rw [List.mem_flatMap]
  constructor
  · rintro ⟨⟨r, vs⟩, he, hv⟩
    obtain ⟨i, row, rfl, hi⟩ := commonValues_replica mesh L D h s hs r vs he
    exact ⟨i, row, hi, (C73_complete_iff mesh L D h s.locals hs.nodup hs.sets i row hi
      (hs.all row (List.mem_of_getElem? hi)) step).1 ⟨vs, he, hv⟩⟩
  · rintro ⟨i, row, hi, ha⟩
    obtain ⟨vs, he, hv⟩ := (C73_complete_iff mesh L D h s.locals hs.nodup hs.sets i row hi
      (hs.all row (List.mem_of_getElem? hi)) step).2 ha
    exact ⟨(some i, vs), he, hv⟩

/-- C73: `all_steps` lists exactly the steps that some slice has completely or that are in persistent
storage. -/
theorem C73_all_steps (mesh : Mesh) (L D : Nat) (h : Regular mesh L D) (s : Store)
    (hs : Reports mesh s) (step : Nat) :
    step ∈ allSteps mesh L s ↔ (∃ r, CompleteIn mesh s r step) ∨ step ∈ s.persistent := by
  rw [allSteps, List.mem_append, localSteps_iff mesh L D h s hs]

/-- C73: `restore(step)` reads from a slice that has the step completely if there is one, otherwise
from persistent storage if the step is there, and fails otherwise. -/
theorem C73_restore_step (mesh : Mesh) (L D : Nat) (h : Regular mesh L D) (s : Store)
    (hs : Reports mesh s) (step : Nat) :
    (∃ r, restoreStep mesh L s step = .slice r ∧ CompleteIn mesh s r step) ∨
    ((¬ ∃ r, CompleteIn mesh s r step) ∧ step ∈ s.persistent ∧
      restoreStep mesh L s step = .persistent) ∨
    ((¬ ∃ r, CompleteIn mesh s r step) ∧ step ∉ s.persistent ∧
      restoreStep mesh L s step = .error) := by
  unfold restoreStep findSlice
  cases hf : (commonValues mesh L s.locals).find? fun e => e.2.contains step with
  | some e =>
    obtain ⟨r, vs⟩ := e
    have h1 := List.mem_of_find?_eq_some hf
    have h2 := List.find?_some hf
    obtain ⟨i, row, rfl, hi⟩ := commonValues_replica mesh L D h s hs r vs h1
    exact Or.inl ⟨i, rfl, row, hi, (C73_complete_iff mesh L D h s.locals hs.nodup hs.sets i row hi
      (hs.all row (List.mem_of_getElem? hi)) step).1 ⟨vs, h1, by simpa using h2⟩⟩
  | none =>
    have hno : ¬ ∃ r, CompleteIn mesh s r step := by
      intro hc
      have := (localSteps_iff mesh L D h s hs step).2 hc
      rw [localSteps, List.mem_flatMap] at this
      obtain ⟨e, he, hv⟩ := this
      rw [List.find?_eq_none] at hf
      exact hf e he (by simpa using hv)
    by_cases hp : step ∈ s.persistent
    · exact Or.inr (Or.inl ⟨hno, hp, by simp [hp]⟩)
    · exact Or.inr (Or.inr ⟨hno, hp, by simp [hp]⟩)

/-- C73: a manager that has just been created (or has just listed its steps) restores the greatest of
all restorable steps, and fails only if there is none. -/
theorem C73_restore_fresh (mesh : Mesh) (L D : Nat) (h : Regular mesh L D) (s : Store)
    (hs : Reports mesh s) :
    (∃ step src, restoreLatest mesh L s (refresh mesh L s) = (some step, src) ∧ src ≠ .error ∧
      ∀ t, ((∃ r, CompleteIn mesh s r t) ∨ t ∈ s.persistent) → t ≤ step) ∨
    ((restoreLatest mesh L s (refresh mesh L s)).2 = .error ∧
      ∀ t, ¬ ((∃ r, CompleteIn mesh s r t) ∨ t ∈ s.persistent)) := by
  have hl := fun t => localSteps_iff mesh L D h s hs t
  have fin : ∀ step, (step ∈ localSteps mesh L s ∨ step ∈ s.persistent) →
      restoreStep mesh L s step ≠ .error := by
    intro step hm
    rcases C73_restore_step mesh L D h s hs step with ⟨r, h1, -⟩ | ⟨-, -, h1⟩ | ⟨h1, h2, -⟩
    · rw [h1]; simp
    · rw [h1]; simp
    · rcases hm with hm | hm
      · exact absurd ((hl step).1 hm) h1
      · exact absurd hm h2
  unfold restoreLatest latestStep refresh
  cases h1 : (localSteps mesh L s).max? with
  | none =>
    rw [List.max?_eq_none_iff] at h1
    cases h2 : s.persistent.max? with
    | none =>
      rw [List.max?_eq_none_iff] at h2
      refine Or.inr ⟨rfl, ?_⟩
      rintro t (ht | ht)
      · have := (hl t).2 ht
        rw [h1] at this; cases this
      · rw [h2] at ht; cases ht
    | some p =>
      rw [List.max?_eq_some_iff] at h2
      refine Or.inl ⟨p, _, rfl, fin p (Or.inr h2.1), ?_⟩
      rintro t (ht | ht)
      · have := (hl t).2 ht
        rw [h1] at this; cases this
      · exact h2.2 t ht
  | some l =>
    rw [List.max?_eq_some_iff] at h1
    cases h2 : s.persistent.max? with
    | none =>
      rw [List.max?_eq_none_iff] at h2
      refine Or.inl ⟨l, _, rfl, fin l (Or.inl h1.1), ?_⟩
      rintro t (ht | ht)
      · exact h1.2 t ((hl t).2 ht)
      · rw [h2] at ht; cases ht
    | some p =>
      rw [List.max?_eq_some_iff] at h2
      refine Or.inl ⟨max l p, _, rfl, fin _ ?_, ?_⟩
      · rcases Nat.le_total l p with hlp | hlp
        · rw [Nat.max_eq_right hlp]; exact Or.inr h2.1
        · rw [Nat.max_eq_left hlp]; exact Or.inl h1.1
      · rintro t (ht | ht)
        · have := h1.2 t ((hl t).2 ht); omega
        · have := h2.2 t ht; omega

/-- C73: a step that was saved after the manager's last listing and whose writing has finished (in some
slice or in persistent storage) is what `restore(None)` restores, if it is the greatest. -/
theorem C73_restore_saved (mesh : Mesh) (L D : Nat) (h : Regular mesh L D) (s0 s : Store)
    (hs : Reports mesh s) (step : Nat) (p l : Bool) (hsaved : p = true ∨ l = true)
    (hnew : ∀ t, t ∈ localSteps mesh L s0 ∨ t ∈ s0.persistent → t < step)
    (hdone : (∃ r, CompleteIn mesh s r step) ∨ step ∈ s.persistent) :
    ∃ src, restoreLatest mesh L s (save (refresh mesh L s0) step p l) = (some step, src) ∧
      src ≠ .error := by
  have hlat : latestStep (save (refresh mesh L s0) step p l) = some step := by
    have a1 : ∀ x, (localSteps mesh L s0).max? = some x → x < step := by
      intro x hx
      rw [List.max?_eq_some_iff] at hx
      exact hnew x (Or.inl hx.1)
    have a2 : ∀ x, s0.persistent.max? = some x → x < step := by
      intro x hx
      rw [List.max?_eq_some_iff] at hx
      exact hnew x (Or.inr hx.1)
    unfold latestStep save refresh
    cases h1 : (localSteps mesh L s0).max? <;> cases h2 : s0.persistent.max? <;>
      cases p <;> cases l <;> simp_all <;> omega
  refine ⟨_, by rw [restoreLatest, hlat], ?_⟩
  rcases C73_restore_step mesh L D h s hs step with ⟨r, h1, -⟩ | ⟨-, -, h1⟩ | ⟨h1, h2, -⟩
  · rw [h1]; simp
  · rw [h1]; simp
  · rcases hdone with hd | hd
    · exact absurd hd h1
    · exact absurd hd h2

/-- C73 (finding): the latest step is cached when a save starts.  If the background write of the step
then fails, `restore(None)` fails although older complete steps can be restored, and steps up to the
failed one are not saved again. -/
theorem C73_failed_save_fails (mesh : Mesh) (L D : Nat) (h : Regular mesh L D) (s : Store)
    (hs : Reports mesh s) (step : Nat) (p l : Bool) (hsaved : p = true ∨ l = true)
    (hnew : ∀ t, t ∈ localSteps mesh L s ∨ t ∈ s.persistent → t < step) :
    restoreLatest mesh L s (save (refresh mesh L s) step p l) = (some step, .error) ∧
    refusesOld (save (refresh mesh L s) step p l) step = true := by
  have a1 : ∀ x, (localSteps mesh L s).max? = some x → x < step := by
    intro x hx
    rw [List.max?_eq_some_iff] at hx
    exact hnew x (Or.inl hx.1)
  have a2 : ∀ x, s.persistent.max? = some x → x < step := by
    intro x hx
    rw [List.max?_eq_some_iff] at hx
    exact hnew x (Or.inr hx.1)
  have hlat : latestStep (save (refresh mesh L s) step p l) = some step := by
    unfold latestStep save refresh
    cases h1 : (localSteps mesh L s).max? <;> cases h2 : s.persistent.max? <;>
      cases p <;> cases l <;> simp_all <;> omega
  refine ⟨?_, by simp [refusesOld, hlat]⟩
  rw [restoreLatest, hlat]
  rcases C73_restore_step mesh L D h s hs step with ⟨r, -, h1⟩ | ⟨-, h1, -⟩ | ⟨-, -, h1⟩
  · have := hnew step (Or.inl ((localSteps_iff mesh L D h s hs step).2 ⟨r, h1⟩)); omega
  · have := hnew step (Or.inr h1); omega
  · simp [h1]

/-- C73 (finding): if the devices of a process lie in more than one replica, no local step is ever
complete, although every process has it: the number of processes per replica is computed as 0. -/
theorem C73_spanning_fails :
    ∃ (mesh : Mesh) (s : Store), (∀ e ∈ s.locals, 7 ∈ e.2) ∧
      (∀ row ∈ mesh, ∀ p ∈ row, p ∈ s.locals.map Prod.fst) ∧
      allSteps mesh 4 s = [] ∧ restoreStep mesh 4 s 7 = .error := by
  exact ⟨[[0, 0], [0, 0], [1, 1], [1, 1]], ⟨[(0, [7]), (1, [7])], []⟩, by decide, by decide,
    by decide, by decide⟩

/-- C73 (finding): if processes do not belong to the mesh, their local steps are listed, but cannot be
restored. -/
theorem C73_outside_fails :
    ∃ (mesh : Mesh) (s : Store), Regular mesh 1 1 ∧
      7 ∈ allSteps mesh 1 s ∧ (refresh mesh 1 s).localLatest = some 7 ∧
      restoreLatest mesh 1 s (refresh mesh 1 s) = (some 7, .error) ∧
      restoreStep mesh 1 s 5 = .slice 0 := by
  refine ⟨[[0], [1]], ⟨[(0, [5]), (1, [5]), (2, [7])], []⟩, ⟨by decide, by decide, by decide,
    by decide, ?_⟩, by decide, by decide, by decide, by decide⟩
  intro i j a b ha hb p hpa hpb
  match i, j with
  | 0, 0 => rfl
  | 1, 1 => rfl
  | 0, 1 => simp at ha hb; subst ha; subst hb; simp at hpa hpb; omega
  | 1, 0 => simp at ha hb; subst ha; subst hb; simp at hpa hpb; omega
  | i + 2, _ => simp at ha
  | _, j + 2 => simp at hb

/-- C73, non-vacuity: two slices of two processes with two devices each; step 8 is complete only in
slice 1, step 9 in none, step 4 in persistent storage. -/
theorem C73_nonvacuous :
    ∃ (mesh : Mesh) (s : Store), Regular mesh 2 4 ∧ Reports mesh s ∧
      CompleteIn mesh s 1 8 ∧ restoreStep mesh 2 s 8 = .slice 1 ∧
      restoreStep mesh 2 s 9 = .error ∧ restoreStep mesh 2 s 4 = .persistent ∧
      restoreLatest mesh 2 s (refresh mesh 2 s) = (some 8, .slice 1) := by
  refine ⟨[[0, 0, 1, 1], [2, 2, 3, 3]],
    ⟨[(0, [8, 9]), (1, []), (2, [8]), (3, [9, 8])], [4, 2]⟩,
    ⟨by decide, by decide, by decide, by decide, ?_⟩,
    ⟨by decide, by decide, by decide, by decide⟩,
    ⟨[2, 2, 3, 3], rfl, by decide⟩, by decide, by decide, by decide, by decide⟩
  intro i j a b ha hb p hpa hpb
  match i, j with
  | 0, 0 => rfl
  | 1, 1 => rfl
  | 0, 1 => simp at ha hb; subst ha; subst hb; simp at hpa hpb; omega
  | 1, 0 => simp at ha hb; subst ha; subst hb; simp at hpa hpb; omega
  | i + 2, _ => simp at ha
  | _, j + 2 => simp at hb

end Verif.Emergency.Slices
