import Verif.Store.Model

/-! # Helper lemmas on the store model -/

namespace Verif.Store

open Verif.NameFormat (Name tmpSuffix)
open Verif.Assoc

/-! ### Programs -/

theorem run_append (fs : FS) (as bs : List Act) :
    run fs (as ++ bs) = if (run fs as).2 then run (run fs as).1 bs else run fs as := by
  induction as generalizing fs with
  | nil => simp [run]
  | cons a as ih =>
    simp only [List.cons_append, run]
    rcases Option.eq_none_or_eq_some (exec fs a) with he | ⟨fs', he⟩
    · simp [he]
    · simp only [he]; exact ih fs'

/-- The names an action may change. -/
def touched : Act → List Name
  | .mkdir n => [n]
  | .op n _ => [n]
  | .rmdir n => [n]
  | .rename a b => [a, b]

theorem exec_frame (fs fs' : FS) (a : Act) (h : exec fs a = some fs') (m : Name) (hm : m ∉ touched a) :
    get fs' m = get fs m := by
  cases a with
  | mkdir n =>
    simp only [touched, List.mem_singleton] at hm
    simp only [exec] at h
    split at h <;> simp at h
    rw [← h, get_put_ne _ _ hm]
  | op n o =>
    simp only [touched, List.mem_singleton] at hm
    simp only [exec] at h
    split at h <;> simp at h
    rw [← h, get_put_ne _ _ hm]
  | rmdir n =>
    simp only [touched, List.mem_singleton] at hm
    simp only [exec] at h
    split at h <;> simp at h
    rw [← h, get_del_ne _ hm]
  | rename a b =>
    simp only [touched, List.mem_cons, List.not_mem_nil, or_false, not_or] at hm
    simp only [exec] at h
    split at h
    · split at h <;> simp at h
      all_goals rw [← h, get_put_ne _ _ hm.2, get_del_ne _ hm.1]
    · simp at h

theorem run_frame (fs : FS) (as : List Act) (m : Name) (hm : ∀ a ∈ as, m ∉ touched a) :
    get (run fs as).1 m = get fs m := by
  induction as generalizing fs with
  | nil => rfl
  | cons a as ih =>
    simp only [run]
    cases he : exec fs a with
    | none => rfl
    | some fs' =>
      simp only
      rw [ih fs' fun b hb => hm b (List.mem_cons_of_mem _ hb)]
      exact exec_frame fs fs' a he m (hm a List.mem_cons_self)

theorem exec_nodup (fs fs' : FS) (a : Act) (h : exec fs a = some fs') (hn : (keys fs).Nodup) :
    (keys fs').Nodup := by
  cases a <;> simp only [exec] at h <;> split at h
  all_goals first
    | (simp at h; done)
    | (simp only [Option.some.injEq] at h; subst h
       first | exact nodup_put _ _ _ hn | exact nodup_del _ _ hn)
    | (split at h
       all_goals first
        | (simp at h; done)
        | (simp only [Option.some.injEq] at h; subst h; exact nodup_put _ _ _ (nodup_del _ _ hn)))

theorem run_nodup (fs : FS) (as : List Act) (hn : (keys fs).Nodup) : (keys (run fs as).1).Nodup := by
  induction as generalizing fs with
  | nil => exact hn
  | cons a as ih =>
    simp only [run]
    cases he : exec fs a with
    | none => exact hn
    | some fs' => exact ih fs' (exec_nodup fs fs' a he hn)

/-- File operations on an existing directory all succeed. -/
theorem run_ops (fs : FS) (n : Name) (f : Files) (ops : List FileOp) (h : get fs n = some (.dir f)) :
    (run fs (ops.map (Act.op n))).2 = true ∧
    get (run fs (ops.map (Act.op n))).1 n = some (.dir (applyOps f ops)) := by
  induction ops generalizing fs f with
  | nil => exact ⟨rfl, h⟩
  | cons o ops ih =>
    simp only [List.map_cons, run, exec, h]
    exact ih _ _ (get_put_self _ _ _)

theorem applyOps_get_other (f : Files) (ops : List FileOp) (x : Name) (h : ∀ o ∈ ops, o.target ≠ x) :
    get (applyOps f ops) x = get f x := by
  induction ops generalizing f with
  | nil => rfl
  | cons o ops ih =>
    have h1 := h o List.mem_cons_self
    show get (applyOps (applyOp f o) ops) x = _
    rw [ih _ fun o' ho' => h o' (List.mem_cons_of_mem _ ho')]
    cases o with
    | tear g => exact get_put_ne _ _ (Ne.symm h1)
    | write g d => exact get_put_ne _ _ (Ne.symm h1)
    | unlink g => exact get_del_ne _ (Ne.symm h1)

theorem applyOps_append (f : Files) (a b : List FileOp) : applyOps f (a ++ b) = applyOps (applyOps f a) b := by
  simp [applyOps]

theorem applyOps_unlink (f : Files) (xs : List Name) :
    applyOps f (xs.map FileOp.unlink) = f.filter fun p => !xs.contains p.1 := by
  induction xs generalizing f with
  | nil =>
    show f = _
    rw [List.filter_eq_self.mpr]; simp
  | cons x xs ih =>
    show applyOps (del f x) (xs.map FileOp.unlink) = _
    rw [ih, del, List.filter_filter]
    congr 1
    funext p
    by_cases hp : p.1 = x <;> simp [hp]

theorem applyOps_unlink_all (f : Files) (xs : List Name) (h : ∀ x ∈ keys f, x ∈ xs) :
    applyOps f (xs.map FileOp.unlink) = [] := by
  rw [applyOps_unlink, List.filter_eq_nil_iff]
  intro p hp
  have : p.1 ∈ xs := h _ (List.mem_map.mpr ⟨p, hp, rfl⟩)
  simpa using this

theorem rmtree_touched (ord : List Name → List Name) (fs : FS) (n : Name) (a : Act) (ha : a ∈ rmtreeActs ord fs n) :
    touched a = [n] := by
  unfold rmtreeActs at ha
  split at ha
  · rcases List.mem_append.mp ha with ha | ha
    · obtain ⟨x, _, rfl⟩ := List.mem_map.mp ha; rfl
    · simp at ha; subst ha; rfl
  · simp at ha; subst ha; rfl

/-- `rmtree` of a directory removes it, whatever the rest of the file system has become. -/
theorem run_rmtree (ord : List Name → List Name) (ho : ∀ l, (ord l).Perm l) (fs fs0 : FS) (n : Name) (f : Files)
    (h0 : get fs0 n = some (.dir f)) (h : get fs n = some (.dir f)) :
    (run fs (rmtreeActs ord fs0 n)).2 = true ∧ get (run fs (rmtreeActs ord fs0 n)).1 n = none := by
  unfold rmtreeActs
  rw [h0]
  simp only
  have hm : (ord (keys f)).map (fun x => Act.op n (.unlink x)) = ((ord (keys f)).map FileOp.unlink).map (Act.op n) := by
    simp
  rw [hm, run_append]
  obtain ⟨h1, h2⟩ := run_ops fs n f ((ord (keys f)).map FileOp.unlink) h
  rw [if_pos h1]
  rw [applyOps_unlink_all f _ fun x hx => (ho _).mem_iff.mpr hx] at h2
  simp only [run, exec, h2]
  simp

/-! ### Temporary names -/

theorem cutTmp_append (n : Name) : hasTmp n = false → cutTmp (n ++ tmpSuffix) = some n := by
  induction n with
  | nil => intro _; decide
  | cons c s ih =>
    intro h
    have hc : cutTmp (c :: s) = none := by simpa [hasTmp] using h
    unfold cutTmp at hc
    split at hc
    · simp at hc
    · rename_i hp
      simp only [Option.map_eq_none_iff] at hc
      have hs := ih (by simp [hasTmp, hc])
      rw [List.cons_append]
      unfold cutTmp
      rw [if_neg, hs]
      · rfl
      · intro hq
        rw [List.isPrefixOf_iff_prefix] at hq hp
        rw [← List.cons_append] at hq
        rcases Nat.le_total tmpSuffix.length (c :: s).length with hl | hl
        · exact hp (List.prefix_of_prefix_length_le hq (List.prefix_append _ _) hl)
        · obtain ⟨t, ht⟩ := List.prefix_of_prefix_length_le (List.prefix_append (c :: s) tmpSuffix) hq hl
          cases t with
          | nil => exact hp (by rw [← ht]; simp)
          | cons d t =>
            have h1 : d :: t <+: tmpSuffix := by
              have hq' : (c :: s) ++ (d :: t) <+: (c :: s) ++ tmpSuffix := by rw [ht]; exact hq
              exact (List.prefix_append_right_inj (c :: s)).mp hq'
            have hs0 : tmpSuffix = '.' :: "orbax-checkpoint-tmp".toList := by decide
            have hd : d = '.' := by
              rw [hs0, List.cons_prefix_cons] at h1
              exact h1.1
            have h2 : d ∈ tmpSuffix.tail := by
              rw [← ht]; simp
            subst hd
            revert h2; decide

theorem hasTmp_append (n : Name) : hasTmp (n ++ tmpSuffix) = true := by
  by_cases h : hasTmp n = true
  · induction n with
    | nil => decide
    | cons c s ih =>
      rw [List.cons_append]
      unfold hasTmp at h ih ⊢
      unfold cutTmp at h ⊢
      split
      · rfl
      · rename_i hp
        split at h
        · rename_i hq
          exfalso; apply hp
          rw [List.isPrefixOf_iff_prefix] at hq ⊢
          exact hq.trans (List.prefix_append (c :: s) tmpSuffix)
        · simp only [Option.isSome_map] at h ⊢
          exact ih h
  · simp only [Bool.not_eq_true] at h
    simp [hasTmp, cutTmp_append n h]

/-- The recursive search finds the suffix iff it occurs. -/
theorem hasTmp_iff (n : Name) : hasTmp n = true ↔ tmpSuffix <:+: n := by
  induction n with
  | nil =>
    constructor
    · intro h; simp [hasTmp, cutTmp] at h
    · intro h
      have := h.length_le
      exact absurd this (by decide)
  | cons c s ih =>
    rw [List.infix_cons_iff, ← ih]
    unfold hasTmp
    conv => lhs; unfold cutTmp
    split
    · rename_i h; rw [List.isPrefixOf_iff_prefix] at h; simp [h]
    · rename_i h; rw [List.isPrefixOf_iff_prefix] at h; simp [h]

theorem tmpName_ne (n : Name) (h : hasTmp n = false) : tmpName .atomicRename n ≠ n := by
  intro he
  have := hasTmp_append n
  unfold tmpName at he
  simp only at he
  rw [he, h] at this
  cases this

end Verif.Store
