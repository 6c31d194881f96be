import Verif.Store.CleanupProps

/-!
# Properties of the checkpoint store: deleting a step (C24)
-/

namespace Verif.Store

open Verif.NameFormat (Name tmpSuffix)
open Verif.Assoc

/-- `t` is a left-over temporary directory of a save to `n`. -/
def LeftOver (d : Protocol) (fs : FS) (t n : Name) : Prop :=
  ∃ f, get fs t = some (.dir f) ∧ validTmp d t (.dir f) = true ∧ finalName d t = some n

theorem findTarget_some (d : Protocol) (o : Opts) (fs : FS) (hn : (keys fs).Nodup) (n t : Name)
    (h : findTarget d o fs n = some t) :
    LeftOver d fs t n ∨ (t = n ∧ ∃ x, get fs n = some x ∧ isFinalized o n x = true) := by
  unfold findTarget at h
  split at h
  · rename_i t' hf
    simp only [Option.some.injEq] at h
    subst h
    have h1 := List.mem_of_find?_eq_some hf
    have h2 := List.find?_some hf
    obtain ⟨x, hx, hxt⟩ := (mem_temporaries _ _ hn _).mp h1
    obtain ⟨f, rfl⟩ := temporary_dir _ _ _ hxt
    refine .inl ⟨f, hx, ?_, by simpa using h2⟩
    simpa [isTemporary] using hxt
  · split at h
    · rename_i x hx
      split at h
      · rename_i hfin
        simp only [Option.some.injEq] at h
        exact .inr ⟨h.symm, x, hx, hfin⟩
      · cases h
    · cases h

theorem findTarget_no_leftover (d : Protocol) (o : Opts) (fs : FS) (hn : (keys fs).Nodup) (n : Name)
    (h : ∀ t, ¬ LeftOver d fs t n) (x : Node) (hx : get fs n = some x) (hf : isFinalized o n x = true) :
    findTarget d o fs n = some n := by
  unfold findTarget
  split
  · rename_i t hf
    have h1 := List.mem_of_find?_eq_some hf
    have h2 := List.find?_some hf
    obtain ⟨x, hx, hxt⟩ := (mem_temporaries _ _ hn _).mp h1
    obtain ⟨f, rfl⟩ := temporary_dir _ _ _ hxt
    exact absurd ⟨f, hx, by simpa [isTemporary] using hxt, by simpa using h2⟩ (h t)
  · rw [hx]; simp [hf]

/-- **C24** only that step: whatever the state of the directory and the configuration, and even if the
deletion raises, every other entry that is not a left-over of a save to the same name stays as it was. -/
theorem C24_only_that_step (ord : List Name → List Name) (primary : Bool) (tr : Trash) (d : Protocol) (o : Opts)
    (w : World) (hn : (keys w.root).Nodup) (n m : Name) (hm : m ≠ n) (hl : ¬ LeftOver d w.root m n) :
    get (delete ord primary tr d o w n).1.root m = get w.root m ∧
    get (delete ord primary tr d o w n).1.trash m = get w.trash m := by
  unfold delete
  split
  · exact ⟨rfl, rfl⟩
  · split
    · exact ⟨rfl, rfl⟩
    · rename_i t ht
      have hmt : m ≠ t := by
        rintro rfl
        rcases findTarget_some d o w.root hn n m ht with h | ⟨h, _⟩
        · exact hl h
        · exact hm h
      cases tr with
      | fullPath => exact ⟨rfl, rfl⟩
      | subdir =>
        simp only [moveToTrash]
        split
        · exact ⟨get_del_ne _ hmt, get_put_ne _ _ hm⟩
        · exact ⟨get_del_ne _ hmt, get_put_ne _ _ hm⟩
        · exact ⟨rfl, rfl⟩
      | permanent =>
        refine ⟨?_, rfl⟩
        refine run_frame _ _ _ fun a ha => ?_
        rw [rmtree_touched _ _ _ _ ha]; simpa using hmt

/-- **C24** that step, if no save to the same name was left unfinished: a finished step is removed, or
moved to the trash with its contents if a trash directory is configured and has room for it. -/
theorem C24_removes_partial (ord : List Name → List Name) (ho : ∀ l, (ord l).Perm l) (d : Protocol) (o : Opts)
    (w : World) (hn : (keys w.root).Nodup) (n : Name) (f : Files) (hv : Visible o w.root n f)
    (hl : ∀ t, ¬ LeftOver d w.root t n) :
    ((delete ord true .permanent d o w n).2 = true ∧
      get (delete ord true .permanent d o w n).1.root n = none) ∧
    (get w.trash n = none →
      (delete ord true .subdir d o w n).2 = true ∧
      get (delete ord true .subdir d o w n).1.root n = none ∧
      get (delete ord true .subdir d o w n).1.trash n = some (.dir f)) := by
  have ht := findTarget_no_leftover d o w.root hn n hl _ hv.1 hv.2
  constructor
  · simp only [delete, ht]
    exact run_rmtree ord ho w.root w.root n f hv.1 hv.1
  · intro htr
    simp only [delete, ht, moveToTrash, hv.1, htr]
    simp

/-- **C24** deleting a step that does not exist, or from a host that is not the primary one, changes
nothing and does not raise. -/
theorem C24_missing (ord : List Name → List Name) (primary : Bool) (tr : Trash) (d : Protocol) (o : Opts)
    (w : World) (hn : (keys w.root).Nodup) (n : Name)
    (h : primary = false ∨ ((∀ t, ¬ LeftOver d w.root t n) ∧
      ∀ x, get w.root n = some x → isFinalized o n x = false)) :
    delete ord primary tr d o w n = (w, true) := by
  unfold delete
  rcases h with h | ⟨h1, h2⟩
  · simp [h]
  · split
    · rfl
    · split
      · rfl
      · rename_i t ht
        rcases findTarget_some d o w.root hn n t ht with h | ⟨_, x, hx, hf⟩
        · exact absurd h (h1 t)
        · rw [h2 x hx] at hf; cases hf

/-- Finding: if an unfinished save to the same name was left over (an older attempt in the same
directory), `delete` removes the left-over and reports success, but the step itself stays visible. -/
theorem C24_leftover_shadows_step_fails (ord : List Name → List Name) (ho : ∀ l, (ord l).Perm l)
    (w : World) (hn : (keys w.root).Nodup) (n t : Name) (f : Files) (hv : Visible renameOpts w.root n f)
    (hl : LeftOver .atomicRename w.root t n) :
    (delete ord true .permanent .atomicRename renameOpts w n).2 = true ∧
    Visible renameOpts (delete ord true .permanent .atomicRename renameOpts w n).1.root n f := by
  have hex : ∃ t', findTarget .atomicRename renameOpts w.root n = some t' ∧ LeftOver .atomicRename w.root t' n := by
    unfold findTarget
    obtain ⟨g, hg, hgt, hgf⟩ := hl
    have hmem : t ∈ temporaries ⟨.atomicRename, false⟩ w.root :=
      (mem_temporaries _ _ hn _).mpr ⟨_, hg, by simpa [isTemporary] using hgt⟩
    split
    · rename_i t' hf
      have h1 := List.mem_of_find?_eq_some hf
      have h2 := List.find?_some hf
      obtain ⟨x, hx, hxt⟩ := (mem_temporaries _ _ hn _).mp h1
      obtain ⟨f', rfl⟩ := temporary_dir _ _ _ hxt
      exact ⟨t', rfl, f', hx, by simpa [isTemporary] using hxt, by simpa using h2⟩
    · rename_i hf
      have := List.find?_eq_none.mp hf t hmem
      simp [hgf] at this
  obtain ⟨t', ht', f', hg', hv', hf'⟩ := hex
  simp only [delete, ht']
  have hne : n ≠ t' := by
    rintro rfl
    rw [visible_rename] at hv
    simp only [validTmp, Bool.and_eq_true] at hv'
    exact hv.2 ((hasTmp_iff _).mp hv'.1.2)
  refine ⟨(run_rmtree ord ho w.root w.root t' f' hg' hg').1, ?_⟩
  rw [visible_rename] at hv ⊢
  refine ⟨?_, hv.2⟩
  simp only [Bool.not_true, Bool.false_eq_true, if_false]
  rw [run_frame, hv.1]
  intro a ha
  rw [rmtree_touched _ _ _ _ ha]; simpa using hne

/-- Finding: with `todelete_subdir`, a step that has been deleted, saved again and is deleted again stays
where it is, and the deletion raises (the directory in the trash is not empty). -/
theorem C24_trash_collision_fails (ord : List Name → List Name) (d : Protocol) (o : Opts) (w : World)
    (hn : (keys w.root).Nodup) (n : Name) (f g : Files) (hv : Visible o w.root n f)
    (hl : ∀ t, ¬ LeftOver d w.root t n) (hg : get w.trash n = some (.dir g)) (hne : g ≠ []) :
    delete ord true .subdir d o w n = (w, false) := by
  have ht := findTarget_no_leftover d o w.root hn n hl _ hv.1 hv.2
  simp only [delete, ht, moveToTrash, hv.1, hg]
  cases g with
  | nil => exact absurd rfl hne
  | cons p g => simp

/-- Finding: with `todelete_full_path` outside Google Cloud Storage no step can be deleted. -/
theorem C24_full_path_fails (ord : List Name → List Name) (d : Protocol) (o : Opts) (w : World)
    (hn : (keys w.root).Nodup) (n : Name) (f : Files) (hv : Visible o w.root n f)
    (hl : ∀ t, ¬ LeftOver d w.root t n) :
    delete ord true .fullPath d o w n = (w, false) := by
  have ht := findTarget_no_leftover d o w.root hn n hl _ hv.1 hv.2
  simp [delete, ht]

/-- Finding: with atomic renames a crash during a permanent deletion leaves a step that is still reported
as finished although files are missing. -/
theorem C24_crash_leaves_torn_step_fails (ord : List Name → List Name) (fs : FS) (n : Name) (f : Files)
    (hv : Visible renameOpts fs n f) (x : Name) (xs : List Name) (hx : ord (keys f) = x :: xs) :
    Visible renameOpts (run fs ((rmtreeActs ord fs n).take 1)).1 n (del f x) := by
  rw [visible_rename] at hv ⊢
  refine ⟨?_, hv.2⟩
  simp [rmtreeActs, hv.1, hx, run, exec, applyOp]

/-- Moving to the trash is a single rename, so with `todelete_subdir` there is no such crash point: the
step is either where it was, or entirely in the trash. -/
theorem C24_trash_keeps_contents (w : World) (t n : Name) (x : Node) (hx : get w.root t = some x) :
    get (moveToTrash w t n).1.root t = some x ∨ get (moveToTrash w t n).1.trash n = some x := by
  unfold moveToTrash
  split
  · rename_i y hy _
    rw [hx] at hy; simp only [Option.some.injEq] at hy; subst hy
    exact .inr (get_put_self _ _ _)
  · rename_i y hy _
    rw [hx] at hy; simp only [Option.some.injEq] at hy; subst hy
    exact .inr (get_put_self _ _ _)
  · exact .inl hx

/-! Concrete cases. -/

/-- Two finished steps. -/
def delFs : FS :=
  [("1".toList, .dir [("a".toList, .data 1)]), ("2".toList, .dir [("a".toList, .data 2)])]

theorem delFs_no_leftover (n : Name) : ∀ t, ¬ LeftOver .atomicRename delFs t n := by
  rintro t ⟨f, hg, hv, _⟩
  simp only [delFs, Assoc.get] at hg
  split at hg
  · rename_i h; subst h
    simp [validTmp, show hasTmp ['1'] = false by decide] at hv
  · split at hg
    · rename_i h; subst h
      simp [validTmp, show hasTmp ['2'] = false by decide] at hv
    · cases hg

/-- Non-vacuity: deleting step 1 of two finished steps. -/
example : (keys delFs).Nodup ∧ Visible renameOpts delFs "1".toList [("a".toList, .data 1)] ∧
    (∀ t, ¬ LeftOver .atomicRename delFs t "1".toList) ∧
    delete id true .permanent .atomicRename renameOpts ⟨delFs, []⟩ "1".toList =
      (⟨[("2".toList, .dir [("a".toList, .data 2)])], []⟩, true) :=
  ⟨by decide, ⟨by decide, by decide⟩, delFs_no_leftover _, by decide⟩

/-- Non-vacuity of the shadowing finding: an old temporary directory of step 1 (with a timestamp, as older
versions named it) next to the finished step. -/
example : LeftOver .atomicRename
    [("1.orbax-checkpoint-tmp-7".toList, .dir []), ("1".toList, .dir [("a".toList, .data 1)])]
    "1.orbax-checkpoint-tmp-7".toList "1".toList :=
  ⟨[], by decide, by decide, by decide⟩

end Verif.Store
