import Verif.Store.Props

/-!
# Properties of the checkpoint store: discovery, overwriting, clean-up (C17, C20, C21)
-/

namespace Verif.Store

open Verif.NameFormat (Name tmpSuffix)
open Verif.Assoc

/-! ### Discovery (C17) -/

/-- **C17** on disk, with atomic renames: the reported steps are exactly those whose canonical entry is a
directory.  In particular the temporary directory of a save is never reported. -/
theorem C17_on_disk_rename (nf : NameFormat.Format) (hl : NameFormat.Literal nf.pfx) (fs : FS)
    (hp : NameFormat.Props.PlainDir (entries renameOpts fs)) (s : Int) :
    s ∈ (NameFormat.findAll nf (entries renameOpts fs)).map (·.step) ↔
      0 ≤ s ∧ ∃ x, (NameFormat.buildName nf s, x) ∈ fs ∧ isDir x = true ∧
        ¬ tmpSuffix <:+: NameFormat.buildName nf s := by
  rw [NameFormat.Props.C17_find_all nf hl _ hp]
  simp only [NameFormat.Props.Committed, entries, List.mem_map]
  constructor
  · rintro ⟨h0, e, ⟨p, hpm, rfl⟩, hn, hf⟩
    refine ⟨h0, p.2, ?_, ?_, ?_⟩
    · simp only at hn; rw [← hn]; exact hpm
    · simp [isFinalized, validFinal] at hf; exact hf.2
    · simp only at hn
      simp [isFinalized, validFinal] at hf
      rw [← hasTmp_iff, ← hn, hf.1]; simp
  · rintro ⟨h0, x, hx, hd, ht⟩
    refine ⟨h0, _, ⟨_, hx, rfl⟩, rfl, ?_⟩
    rw [← hasTmp_iff] at ht
    simp [isFinalized, validFinal, hd, ht]

/-- **C17** on disk, with commit files: the reported steps are exactly those whose canonical entry is a
directory with the commit marker. -/
theorem C17_on_disk_commit (nf : NameFormat.Format) (hl : NameFormat.Literal nf.pfx) (fs : FS)
    (hp : NameFormat.Props.PlainDir (entries commitOpts fs)) (s : Int) :
    s ∈ (NameFormat.findAll nf (entries commitOpts fs)).map (·.step) ↔
      0 ≤ s ∧ ∃ x, (NameFormat.buildName nf s, x) ∈ fs ∧ hasCommitFile x = true := by
  rw [NameFormat.Props.C17_find_all nf hl _ hp]
  simp only [NameFormat.Props.Committed, entries, List.mem_map]
  constructor
  · rintro ⟨h0, e, ⟨p, hpm, rfl⟩, hn, hf⟩
    refine ⟨h0, p.2, ?_, ?_⟩
    · simp only at hn; rw [← hn]; exact hpm
    · simp [isFinalized, validFinal] at hf; exact hf.1
  · rintro ⟨h0, x, hx, hd⟩
    refine ⟨h0, _, ⟨_, hx, rfl⟩, rfl, ?_⟩
    have : isDir x = true := by cases x <;> simp_all [isDir, hasCommitFile]
    simp [isFinalized, validFinal, hd, this]

/-- Non-vacuity: of the demo directory only step 1 is reported, although step 2 has a temporary
directory. -/
example : (NameFormat.findAll ⟨none, none⟩ (entries renameOpts demoFs)).map (·.step) = [1] := by decide

/-! ### Overwriting (C20) -/

/-- Finding (C20 is false): `save(force=True)` over an existing checkpoint first removes it, so there is a
crash point at which no version of the step exists. -/
theorem C20_force_overwrite_fails (p : Protocol) (ord : List Name → List Name) (ho : ∀ l, (ord l).Perm l) (fs : FS)
    (r : SaveReq) (hf : r.force = true) (f : Files) (hold : get fs r.name = some (.dir f)) :
    ∃ acts k, saveActs p ord fs r = some acts ∧ get (run fs (acts.take k)).1 r.name = none := by
  refine ⟨rmtreeActs ord fs r.name ++ writeActs p ord (run fs (rmtreeActs ord fs r.name)).1 r,
    (rmtreeActs ord fs r.name).length, ?_, ?_⟩
  · simp [saveActs, exist, hold, hf]
  · rw [List.take_left']
    · exact (run_rmtree ord ho fs fs r.name f hold hold).2
    · rfl

/-- Finding (C20 is false, worse): with atomic renames a crash during the removal leaves a checkpoint that
is still reported as finished but has lost a file. -/
theorem C20_force_torn_version_fails (ord : List Name → List Name) (fs : FS) (r : SaveReq) (hf : r.force = true)
    (ht : ¬ tmpSuffix <:+: r.name) (f : Files) (hold : get fs r.name = some (.dir f)) (x : Name) (xs : List Name)
    (hx : ord (keys f) = x :: xs) :
    ∃ acts k, saveActs .atomicRename ord fs r = some acts ∧
      Visible renameOpts (run fs (acts.take k)).1 r.name (del f x) := by
  refine ⟨rmtreeActs ord fs r.name ++ writeActs .atomicRename ord (run fs (rmtreeActs ord fs r.name)).1 r, 1, ?_, ?_⟩
  · simp [saveActs, exist, hold, hf]
  · rw [visible_rename]
    refine ⟨?_, ht⟩
    simp [rmtreeActs, hold, hx, run, exec, applyOp]

/-- The part of C20 that holds: at every crash point of an overwriting save all other finished checkpoints
are exactly as before. -/
theorem C20_others_untouched_partial (ord : List Name → List Name) (fs : FS) (r : SaveReq)
    (acts : List Act) (ha : saveActs .atomicRename ord fs r = some acts) (k : Nat) (m : Name) (hm : m ≠ r.name)
    (f : Files) :
    Visible renameOpts (run fs (acts.take k)).1 m f ↔ Visible renameOpts fs m f := by
  rw [visible_rename, visible_rename]
  by_cases htm : tmpSuffix <:+: m
  · simp [htm]
  have hmt : m ≠ tmpName .atomicRename r.name := by
    rintro rfl
    exact htm ((hasTmp_iff _).mp (hasTmp_append _))
  have hacts : ∀ a ∈ acts, m ∉ touched a := by
    have hw : ∀ fs', ∀ a ∈ writeActs .atomicRename ord fs' r, m ∉ touched a := by
      intro fs' a ha
      rw [writeActs_eq] at ha
      rcases List.mem_append.mp ha with ha | ha
      · rw [body_touched _ _ _ _ _ ha]; simpa using hmt
      · simp only [commitActs, List.mem_singleton] at ha
        subst ha; simp [touched, hmt, hm]
    intro a haa
    unfold saveActs at ha
    split at ha
    · split at ha
      · simp only [Option.some.injEq] at ha
        subst ha
        rcases List.mem_append.mp haa with h | h
        · rw [rmtree_touched ord fs r.name a h]; simpa using hm
        · exact hw _ a h
      · cases ha
    · simp only [Option.some.injEq] at ha
      subst ha
      exact hw _ a haa
  rw [run_frame _ _ m fun a ha => hacts a (List.mem_of_mem_take ha)]

/-- Also part of C20: an overwriting save that is not interrupted replaces the contents. -/
theorem C20_completes_partial (ord : List Name → List Name) (ho : ∀ l, (ord l).Perm l) (fs : FS) (r : SaveReq)
    (hf : r.force = true) (f : Files) (hold : get fs r.name = some (.dir f)) (ht : ¬ tmpSuffix <:+: r.name)
    (hleft : get fs (r.name ++ tmpSuffix) = none ∨ ∃ f, get fs (r.name ++ tmpSuffix) = some (.dir f))
    (acts : List Act) (ha : saveActs .atomicRename ord fs r = some acts) :
    (run fs acts).2 = true ∧ Visible renameOpts (run fs acts).1 r.name (contents r) := by
  have he : saveActs .atomicRename ord fs r = some (rmtreeActs ord fs r.name ++
      writeActs .atomicRename ord (run fs (rmtreeActs ord fs r.name)).1 r) := by
    simp [saveActs, exist, hold, hf]
  rw [he] at ha
  simp only [Option.some.injEq] at ha
  subst ha
  obtain ⟨h1, h2⟩ := run_rmtree ord ho fs fs r.name f hold hold
  rw [run_append, if_pos h1]
  have hne : r.name ++ tmpSuffix ≠ r.name := by
    have := tmpName_ne r.name (by rw [← Bool.not_eq_true, hasTmp_iff]; exact ht)
    exact this
  have hsame : get (run fs (rmtreeActs ord fs r.name)).1 (r.name ++ tmpSuffix) = get fs (r.name ++ tmpSuffix) := by
    refine run_frame _ _ _ fun a ha => ?_
    rw [rmtree_touched ord fs r.name a ha]; simpa using hne
  exact C18_completes ord ho _ r h2 ht (by rw [hsame]; exact hleft) _ (saveActs_free _ _ _ _ h2)

/-- Non-vacuity of C20: overwriting step 1 of the demo directory. -/
example : get demoFs "1".toList = some (.dir [("a".toList, .data 1), (commitFile, .data 0)]) ∧
    ({ demoReq with name := "1".toList, force := true } : SaveReq).force = true ∧
    (id (keys [("a".toList, Content.data 1), (commitFile, .data 0)])) = "a".toList :: [commitFile] :=
  ⟨by decide, rfl, by decide⟩

/-! ### Clean-up (C21) -/

theorem mem_temporaries (o : Opts) (fs : FS) (hn : (keys fs).Nodup) (n : Name) :
    n ∈ temporaries o fs ↔ ∃ x, get fs n = some x ∧ isTemporary o n x = true := by
  unfold temporaries
  simp only [List.mem_map, List.mem_filter]
  constructor
  · rintro ⟨p, ⟨hp, ht⟩, rfl⟩
    exact ⟨p.2, get_of_mem fs hn _ _ hp, ht⟩
  · rintro ⟨x, hg, ht⟩
    exact ⟨(n, x), ⟨mem_of_get _ _ _ hg, ht⟩, rfl⟩

theorem temporary_dir (o : Opts) (n : Name) (x : Node) (h : isTemporary o n x = true) : ∃ f, x = .dir f := by
  unfold isTemporary at h
  split at h
  · cases h
  · cases x with
    | dir f => exact ⟨f, rfl⟩
    | file => cases o with | mk p l => cases p <;> simp [validTmp, isDir, isLink] at h
    | link f => cases o with | mk p l => cases p <;> simp [validTmp, isDir, isLink] at h

theorem run_cleanup (ord : List Name → List Name) (ho : ∀ l, (ord l).Perm l) (fs0 : FS) (ns : List Name) (hns : ns.Nodup) :
    ∀ fs, (∀ n ∈ ns, ∃ f, get fs0 n = some (.dir f) ∧ get fs n = some (.dir f)) →
      (run fs (ns.flatMap (rmtreeActs ord fs0))).2 = true ∧
      ∀ m, get (run fs (ns.flatMap (rmtreeActs ord fs0))).1 m = if m ∈ ns then none else get fs m := by
  induction ns with
  | nil => intro fs _; simp [run]
  | cons n ns ih =>
    intro fs h
    rw [List.nodup_cons] at hns
    obtain ⟨f, hf0, hf⟩ := h n List.mem_cons_self
    obtain ⟨h1, h2⟩ := run_rmtree ord ho fs fs0 n f hf0 hf
    rw [List.flatMap_cons, run_append, if_pos h1]
    have hfr : ∀ m, m ≠ n → get (run fs (rmtreeActs ord fs0 n)).1 m = get fs m := by
      intro m hm
      refine run_frame _ _ _ fun a ha => ?_
      rw [rmtree_touched ord fs0 n a ha]; simpa using hm
    obtain ⟨i1, i2⟩ := ih hns.2 (run fs (rmtreeActs ord fs0 n)).1 (by
      intro m hm
      obtain ⟨g, hg0, hg⟩ := h m (List.mem_cons_of_mem _ hm)
      have hne : m ≠ n := by rintro rfl; exact hns.1 hm
      exact ⟨g, hg0, by rw [hfr m hne]; exact hg⟩)
    refine ⟨i1, fun m => ?_⟩
    rw [i2]
    by_cases hmn : m = n
    · subst hmn
      simp [h2]
    · by_cases hm : m ∈ ns
      · simp [hm]
      · simp [hm, hmn, hfr m hmn]

theorem temporaries_nodup (o : Opts) (fs : FS) (hn : (keys fs).Nodup) : (temporaries o fs).Nodup := by
  unfold temporaries
  have : (fs.filter fun p => isTemporary o p.1 p.2).Sublist fs := List.filter_sublist
  exact hn.sublist (this.map Prod.fst)

/-- What clean-up does: it removes the temporary entries, and nothing else. -/
theorem cleanup_spec (ord : List Name → List Name) (ho : ∀ l, (ord l).Perm l) (o : Opts) (fs : FS) (hn : (keys fs).Nodup) :
    (run fs (cleanupActs ord o fs)).2 = true ∧
    ∀ m, get (run fs (cleanupActs ord o fs)).1 m = if m ∈ temporaries o fs then none else get fs m := by
  refine run_cleanup ord ho fs (temporaries o fs) (temporaries_nodup o fs hn) fs fun n hm => ?_
  obtain ⟨x, hx, ht⟩ := (mem_temporaries o fs hn n).mp hm
  obtain ⟨f, rfl⟩ := temporary_dir o n x ht
  exact ⟨f, hx, hx⟩

/-- **C21** (atomic rename): clean-up removes every directory whose name contains the temporary suffix and
leaves every other entry (finished checkpoints, foreign directories, files, links) as it was. -/
theorem C21_cleanup_rename (ord : List Name → List Name) (ho : ∀ l, (ord l).Perm l) (fs : FS) (hn : (keys fs).Nodup)
    (m : Name) :
    (∀ f, get fs m = some (.dir f) → tmpSuffix <:+: m →
      get (run fs (cleanupActs ord renameOpts fs)).1 m = none) ∧
    ((¬ tmpSuffix <:+: m ∨ ∀ f, get fs m ≠ some (.dir f)) →
      get (run fs (cleanupActs ord renameOpts fs)).1 m = get fs m) := by
  obtain ⟨-, h⟩ := cleanup_spec ord ho renameOpts fs hn
  rw [h]
  have hmem := mem_temporaries renameOpts fs hn m
  constructor
  · intro f hf ht
    rw [if_pos]
    refine hmem.mpr ⟨_, hf, ?_⟩
    rw [← hasTmp_iff] at ht
    simp [isTemporary, validTmp, isLink, isDir, ht]
  · intro hcase
    rw [if_neg]
    intro hm
    obtain ⟨x, hx, hxt⟩ := hmem.mp hm
    obtain ⟨f, rfl⟩ := temporary_dir _ _ _ hxt
    rcases hcase with hc | hc
    · rw [← hasTmp_iff] at hc
      simp [isTemporary, validTmp, isLink, isDir, hc] at hxt
    · exact hc f hx

/-- **C21** (commit file): clean-up removes every directory without the commit marker and leaves every
finished checkpoint, file and link as it was. -/
theorem C21_cleanup_commit (ord : List Name → List Name) (ho : ∀ l, (ord l).Perm l) (fs : FS) (hn : (keys fs).Nodup)
    (m : Name) :
    (∀ f, get fs m = some (.dir f) → get f commitFile = none →
      get (run fs (cleanupActs ord commitOpts fs)).1 m = none) ∧
    ((∀ f, get fs m = some (.dir f) → get f commitFile ≠ none) →
      get (run fs (cleanupActs ord commitOpts fs)).1 m = get fs m) := by
  obtain ⟨-, h⟩ := cleanup_spec ord ho commitOpts fs hn
  rw [h]
  have hmem := mem_temporaries commitOpts fs hn m
  constructor
  · intro f hf ht
    rw [if_pos]
    exact hmem.mpr ⟨_, hf, by simp [isTemporary, validTmp, isLink, isDir, hasCommitFile, ht]⟩
  · intro hcase
    rw [if_neg]
    intro hm
    obtain ⟨x, hx, hxt⟩ := hmem.mp hm
    obtain ⟨f, rfl⟩ := temporary_dir _ _ _ hxt
    have hc := hcase f hx
    simp [isTemporary, validTmp, isLink, isDir, hasCommitFile] at hxt
    exact hc hxt

/-- **C21** at every crash point and for every interleaving of the concurrent removals: finished
checkpoints are untouched. -/
theorem C21_cleanup_crash (ord : List Name → List Name) (o : Opts) (fs : FS) (hn : (keys fs).Nodup)
    (acts : List Act) (hsub : ∀ a ∈ acts, a ∈ cleanupActs ord o fs) (m : Name) (x : Node)
    (hx : get fs m = some x) (hf : isFinalized o m x = true) (k : Nat) :
    get (run fs (acts.take k)).1 m = some x := by
  rw [run_frame, hx]
  intro a ha
  have ha := hsub a (List.mem_of_mem_take ha)
  obtain ⟨n, hnm, ha⟩ := List.mem_flatMap.mp ha
  rw [rmtree_touched _ _ _ _ ha, List.mem_singleton]
  rintro rfl
  obtain ⟨y, hy, hyt⟩ := (mem_temporaries o fs hn m).mp hnm
  rw [hx] at hy
  simp only [Option.some.injEq] at hy
  subst hy
  cases o with
  | mk p l => cases p <;> cases l <;> cases x <;>
      simp_all [isTemporary, isFinalized, validTmp, validFinal, isDir, isLink, hasCommitFile]

/-- Finding: with commit files clean-up also removes any foreign directory below the root (a directory
that no save has created and that holds user files). -/
theorem C21_commit_foreign_directory_fails (ord : List Name → List Name) (ho : ∀ l, (ord l).Perm l) :
    get (run [("logs".toList, .dir [("events".toList, .data 1)])]
      (cleanupActs ord commitOpts [("logs".toList, .dir [("events".toList, .data 1)])])).1 "logs".toList = none :=
  (C21_cleanup_commit ord ho _ (by decide) "logs".toList).1 [("events".toList, .data 1)] (by decide) (by decide)

/-- Non-vacuity of C21: one temporary directory, one finished checkpoint. -/
example : (keys demoFs).Nodup ∧ temporaries renameOpts demoFs = ["2.orbax-checkpoint-tmp".toList] ∧
    (run demoFs (cleanupActs id renameOpts demoFs)).1 =
      [("1".toList, .dir [("a".toList, .data 1), (commitFile, .data 0)])] := by
  refine ⟨by decide, by decide, by decide⟩

end Verif.Store
