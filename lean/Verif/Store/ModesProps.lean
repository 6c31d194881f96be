import Verif.Store.Modes

/-!
# Properties of programs with different atomicity options on one directory (C135)
-/

namespace Verif.Store

open Verif.NameFormat (Name tmpSuffix)
open Verif.Assoc

/-! ### Lemmas -/

/-- A directory with the commit file under a name that is not temporary. -/
structure Solid (fs : FS) (m : Name) (f : Files) : Prop where
  there : get fs m = some (.dir f)
  committed : get f commitFile ≠ none
  named : hasTmp m = false

theorem committed_some {f : Files} (h : get f commitFile ≠ none) : (get f commitFile).isSome = true := by
  cases hc : get f commitFile with
  | none => exact absurd hc h
  | some x => rfl

theorem solid_visible {fs : FS} {m : Name} {f : Files} (h : Solid fs m f) (o : Opts) : Visible o fs m f := by
  refine ⟨h.there, ?_⟩
  have := committed_some h.committed
  have := h.named
  cases o with
  | mk p l => cases p <;> simp_all [isFinalized, validFinal, isDir, hasCommitFile]

theorem contents_committed (r : SaveReq) : get (contents r) commitFile ≠ none := by
  unfold contents saveOps
  rw [applyOps_append]
  simp [applyOps, applyOp]

theorem noTmp {n : Name} (h : ¬ tmpSuffix <:+: n) : hasTmp n = false := by rw [← Bool.not_eq_true, hasTmp_iff]; exact h

theorem tmp_ne {m : Name} (h : hasTmp m = false) (n : Name) : m ≠ tmpName .atomicRename n := by
  rintro rfl
  have := hasTmp_append n
  simp only [tmpName] at h
  rw [h] at this; cases this

theorem saveActs_taken (p : Protocol) (ord : List Name → List Name) (fs : FS) (r : SaveReq) (hf : r.force = false) (h : get fs r.name ≠ none) :
    saveActs p ord fs r = none := by
  cases hg : get fs r.name with
  | none => exact absurd hg h
  | some x => simp [saveActs, exist, hg, hf]

theorem solid_step (gcs : Bool) (ord : List Name → List Name) (fs : FS) (hn : (keys fs).Nodup) (c : Conf) (op : Op) (hreg : Regular [op]) (m : Name)
    (f : Files) (h : Solid fs m f) (hd : op ≠ .delete m) : Solid (runConf gcs ord fs c op).1 m f := by
  refine ⟨?_, h.committed, h.named⟩
  cases op with
  | save r k =>
    obtain ⟨hforce, htmp, hbody⟩ := hreg r (by simp [saves])
    by_cases hfree : get fs r.name = none
    · have hne : m ≠ r.name := by rintro rfl; rw [h.there] at hfree; cases hfree
      simp only [runConf, saveActs_free _ ord fs r hfree]
      obtain ⟨j, hj⟩ := runCrash_prefix fs (writeActs (c.opts gcs).protocol ord fs r) k
      rw [hj]
      cases (c.opts gcs).protocol with
      | atomicRename => rw [(write_rename ord fs r hfree (noTmp htmp) j).1 m hne (tmp_ne h.named _)]; exact h.there
      | commitFile => rw [(write_commit ord fs r hfree hbody j).1 m hne]; exact h.there
    · simp only [runConf, saveActs_taken _ ord fs r hforce hfree]; exact h.there
  | restart k =>
    simp only [runConf]
    obtain ⟨j, hj⟩ := runCrash_prefix fs (cleanupActs ord (c.opts gcs) fs) k
    rw [hj]
    exact C21_cleanup_crash ord _ fs hn _ (fun a h => h) m _ h.there (solid_visible h _).2 j
  | delete n =>
    simp only [runConf]
    have hne : m ≠ n := by rintro rfl; exact hd rfl
    rw [(C24_only_that_step ord true .permanent _ _ ⟨fs, []⟩ hn n m hne ?_).1]
    · exact h.there
    · rintro ⟨g, hg, hv, -⟩
      have h1 : get fs m = some (.dir g) := hg
      rw [h.there] at h1
      simp only [Option.some.injEq, Node.dir.injEq] at h1
      subst h1
      have h2 := committed_some h.committed
      have h3 := h.named
      cases hp : defaultClass gcs none <;> simp_all [validTmp, isDir, isLink, hasCommitFile]

theorem runConf_nodup (gcs : Bool) (ord : List Name → List Name) (fs : FS) (hn : (keys fs).Nodup) (c : Conf) (op : Op) :
    (keys (runConf gcs ord fs c op).1).Nodup := by
  cases op with
  | save r k =>
    simp only [runConf]
    split
    · exact hn
    · rename_i acts _
      obtain ⟨j, hj⟩ := runCrash_prefix fs acts k
      rw [hj]; exact run_nodup _ _ hn
  | restart k =>
    simp only [runConf]
    obtain ⟨j, hj⟩ := runCrash_prefix fs (cleanupActs ord (c.opts gcs) fs) k
    rw [hj]; exact run_nodup _ _ hn
  | delete n =>
    simp only [runConf, delete, Bool.not_true, Bool.false_eq_true, if_false]
    split
    · exact hn
    · exact run_nodup _ _ hn

theorem runConf_dirs (gcs : Bool) (ord : List Name → List Name) (fs : FS) (hn : AllDirs fs) (c : Conf) (op : Op) : AllDirs (runConf gcs ord fs c op).1 := by
  cases op with
  | save r k =>
    simp only [runConf]
    split
    · exact hn
    · rename_i acts _
      obtain ⟨j, hj⟩ := runCrash_prefix fs acts k
      rw [hj]; exact run_dirs _ _ hn
  | restart k =>
    simp only [runConf]
    obtain ⟨j, hj⟩ := runCrash_prefix fs (cleanupActs ord (c.opts gcs) fs) k
    rw [hj]; exact run_dirs _ _ hn
  | delete n =>
    simp only [runConf, delete, Bool.not_true, Bool.false_eq_true, if_false]
    split
    · exact hn
    · exact run_dirs _ _ hn

theorem runAll_cons (gcs : Bool) (ord : List Name → List Name) (fs : FS) (e : Conf × Op) (h) :
    runAll gcs ord fs (e :: h) = runAll gcs ord (runConf gcs ord fs e.1 e.2).1 h := rfl

theorem runAll_append (gcs : Bool) (ord : List Name → List Name) (fs : FS) (h h' : List (Conf × Op)) :
    runAll gcs ord fs (h ++ h') = runAll gcs ord (runAll gcs ord fs h) h' := by simp [runAll]

theorem runAll_nodup (gcs : Bool) (ord : List Name → List Name) (h : List (Conf × Op)) : ∀ fs : FS, (keys fs).Nodup → (keys (runAll gcs ord fs h)).Nodup := by
  induction h with
  | nil => intro fs hn; exact hn
  | cons e h ih => intro fs hn; exact ih _ (runConf_nodup gcs ord fs hn e.1 e.2)

theorem runAll_dirs (gcs : Bool) (ord : List Name → List Name) (h : List (Conf × Op)) : ∀ fs : FS, AllDirs fs → AllDirs (runAll gcs ord fs h) := by
  induction h with
  | nil => intro fs hn; exact hn
  | cons e h ih => intro fs hn; exact ih _ (runConf_dirs gcs ord fs hn e.1 e.2)

/-- The events of a history. -/
def ops (h : List (Conf × Op)) : List Op := h.map (·.2)

theorem solid_all (gcs : Bool) (ord : List Name → List Name) (m : Name) (f : Files) (h : List (Conf × Op)) : ∀ fs : FS, (keys fs).Nodup → Regular (ops h) →
    Op.delete m ∉ ops h → Solid fs m f → Solid (runAll gcs ord fs h) m f := by
  induction h with
  | nil => intro fs _ _ _ hs; exact hs
  | cons e h ih =>
    intro fs hn hr hd hs
    rw [ops, List.map_cons, regular_cons] at hr
    rw [ops, List.map_cons, List.mem_cons, not_or] at hd
    rw [runAll_cons]
    exact ih _ (runConf_nodup gcs ord fs hn _ _) hr.2 hd.2 (solid_step gcs ord fs hn _ _ hr.1 m f hs (Ne.symm hd.1))

theorem save_solid (gcs : Bool) (ord : List Name → List Name) (fs : FS) (c : Conf) (r : SaveReq) (k : Option Nat) (hreg : Regular [.save r k])
    (hok : (runConf gcs ord fs c (.save r k)).2 = true) : Solid (runConf gcs ord fs c (.save r k)).1 r.name (contents r) :=
  ⟨(save_returned (c.opts gcs).protocol ord fs r k hreg hok).1, contents_committed r, noTmp (hreg r (by simp [saves])).2.1⟩

/-- Removing files creates no commit file. -/
theorem removal_commit (m : Name) : ∀ (as : List Act) (fs : FS), (∀ a ∈ as, (∃ n, a = Act.rmdir n) ∨ ∃ n y, a = Act.op n (.unlink y)) →
    (∀ g, get fs m = some (.dir g) → get g commitFile = none) → ∀ g, get (run fs as).1 m = some (.dir g) → get g commitFile = none
  | [], _, _, h, g, hg => h g hg
  | a :: as, fs, has, h, g, hg => by
    simp only [run] at hg
    cases he : exec fs a with
    | none => rw [he] at hg; exact h g hg
    | some fs' =>
      rw [he] at hg
      refine removal_commit m as fs' (fun b hb => has b (List.mem_cons_of_mem _ hb)) ?_ g hg
      intro g' hg'
      by_cases htm : m ∈ touched a
      · rcases has a List.mem_cons_self with ⟨n, rfl⟩ | ⟨n, y, rfl⟩
        · simp only [touched, List.mem_singleton] at htm; subst htm
          simp only [exec] at he
          split at he <;> simp at he
          rw [← he] at hg'; simp at hg'
        · simp only [touched, List.mem_singleton] at htm; subst htm
          simp only [exec] at he
          split at he
          · rename_i g0 hg0
            simp only [Option.some.injEq] at he
            rw [← he, get_put_self] at hg'
            simp only [Option.some.injEq, Node.dir.injEq] at hg'
            rw [← hg']
            simp only [applyOp, get_del]
            split
            · rfl
            · exact h g0 hg0
          · cases he
      · rw [exec_frame fs fs' a he m htm] at hg'
        exact h g' hg'

theorem rmtree_removal (ord : List Name → List Name) (fs : FS) (n : Name) (a : Act) (ha : a ∈ rmtreeActs ord fs n) :
    (∃ n, a = Act.rmdir n) ∨ ∃ n y, a = Act.op n (.unlink y) := by
  unfold rmtreeActs at ha
  split at ha
  · rcases List.mem_append.mp ha with ha | ha
    · obtain ⟨y, _, rfl⟩ := List.mem_map.mp ha; exact .inr ⟨n, y, rfl⟩
    · simp at ha; exact .inl ⟨n, ha⟩
  · simp at ha; exact .inl ⟨n, ha⟩

/-- A directory under a name that is not temporary is either untouched by a deletion, or gone. -/
theorem delete_cases (ord : List Name → List Name) (ho : ∀ l, (ord l).Perm l) (d : Protocol) (o : Opts) (fs : FS) (hn : (keys fs).Nodup) (n m : Name) :
    get (delete ord true .permanent d o ⟨fs, []⟩ n).1.root m = get fs m ∨ get (delete ord true .permanent d o ⟨fs, []⟩ n).1.root m = none := by
  simp only [delete, Bool.not_true, Bool.false_eq_true, if_false]
  split
  · exact .inl rfl
  · rename_i t ht
    simp only
    by_cases hmt : m = t
    · subst hmt
      rcases findTarget_some d o fs hn n m ht with ⟨g, hg, -, -⟩ | ⟨hmn, x, hx, hxf⟩
      · exact .inr (run_rmtree ord ho fs fs m g hg hg).2
      · subst hmn
        cases x with
        | dir g => exact .inr (run_rmtree ord ho fs fs m g hx hx).2
        | file => left; simp [rmtreeActs, hx, run, exec]
        | link g => left; simp [rmtreeActs, hx, run, exec]
    · left
      refine run_frame _ _ _ fun a ha => ?_
      rw [rmtree_touched _ _ _ _ ha]; simpa using hmt

theorem only_step (gcs : Bool) (ord : List Name → List Name) (ho : ∀ l, (ord l).Perm l) (fs : FS) (hn : (keys fs).Nodup) (c : Conf) (op : Op)
    (hreg : Regular [op]) (m : Name) (f : Files) (h : Solid (runConf gcs ord fs c op).1 m f) :
    Solid fs m f ∨ ∃ r k, op = .save r k ∧ r.name = m ∧ SameData f (contents r) := by
  cases op with
  | save r k =>
    obtain ⟨hforce, htmp, hbody⟩ := hreg r (by simp [saves])
    by_cases hfree : get fs r.name = none
    · simp only [runConf, saveActs_free _ ord fs r hfree] at h
      obtain ⟨j, hj⟩ := runCrash_prefix fs (writeActs (c.opts gcs).protocol ord fs r) k
      rw [hj] at h
      revert h
      cases (c.opts gcs).protocol with
      | atomicRename =>
        intro h
        obtain ⟨h1, h2⟩ := write_rename ord fs r hfree (noTmp htmp) j
        by_cases hm : m = r.name
        · subst hm
          rcases h2 with h2 | h2
          · rw [h.there] at h2; cases h2
          · rw [h.there] at h2
            simp only [Option.some.injEq, Node.dir.injEq] at h2
            exact .inr ⟨r, k, rfl, rfl, by rw [h2]; exact fun _ _ => rfl⟩
        · exact .inl ⟨by rw [← h1 m hm (tmp_ne h.named _)]; exact h.there, h.committed, h.named⟩
      | commitFile =>
        intro h
        rcases (C19_crash_safe ord fs r hfree hbody _ (saveActs_free _ _ _ _ hfree) j m f).2 ((visible_commit _ _ _).2 ⟨h.there, h.committed⟩) with h' | ⟨h', h''⟩
        · exact .inl ⟨h'.1, h.committed, h.named⟩
        · exact .inr ⟨r, k, rfl, h'.symm, h''⟩
    · simp only [runConf, saveActs_taken _ ord fs r hforce hfree] at h; exact .inl h
  | restart k =>
    left
    simp only [runConf] at h
    obtain ⟨j, hj⟩ := runCrash_prefix fs (cleanupActs ord (c.opts gcs) fs) k
    rw [hj] at h
    refine ⟨?_, h.committed, h.named⟩
    by_cases hmt : m ∈ temporaries (c.opts gcs) fs
    · exfalso
      obtain ⟨x, hx, hxt⟩ := (mem_temporaries _ _ hn _).mp hmt
      obtain ⟨g, rfl⟩ := temporary_dir _ _ _ hxt
      have hg0 : get g commitFile = none := by
        have := h.named
        revert hxt
        cases (c.opts gcs) with
        | mk p l => cases p <;> cases l <;> simp_all [isTemporary, validTmp, validFinal, isDir, isLink, hasCommitFile]
      refine h.committed (removal_commit m _ fs (fun a ha => ?_) (fun g' hg' => ?_) f h.there)
      · obtain ⟨n, _, ha⟩ := List.mem_flatMap.mp (List.mem_of_mem_take ha)
        exact rmtree_removal ord fs n a ha
      · rw [hx] at hg'
        simp only [Option.some.injEq, Node.dir.injEq] at hg'
        rw [← hg']; exact hg0
    · rw [← h.there]
      symm
      refine run_frame _ _ _ fun a ha => ?_
      obtain ⟨n, hnm, ha⟩ := List.mem_flatMap.mp (List.mem_of_mem_take ha)
      rw [rmtree_touched _ _ _ _ ha, List.mem_singleton]
      rintro rfl
      exact hmt hnm
  | delete n =>
    left
    simp only [runConf] at h
    refine ⟨?_, h.committed, h.named⟩
    rcases delete_cases ord ho (defaultClass gcs none) (c.opts gcs) fs hn n m with h' | h'
    · rw [← h']; exact h.there
    · rw [h.there] at h'; cases h'

theorem only_all (gcs : Bool) (ord : List Name → List Name) (ho : ∀ l, (ord l).Perm l) (m : Name) (f : Files) (h : List (Conf × Op)) :
    ∀ fs : FS, (keys fs).Nodup → Regular (ops h) → Solid (runAll gcs ord fs h) m f → Solid fs m f ∨ ∃ r ∈ saves (ops h), r.name = m ∧ SameData f (contents r) := by
  induction h with
  | nil => intro fs _ _ hs; exact .inl hs
  | cons e h ih =>
    intro fs hn hr hs
    rw [ops, List.map_cons, regular_cons] at hr
    have hsv : saves (ops (e :: h)) = saves [e.2] ++ saves (ops h) := by
      unfold saves ops
      rw [← List.filterMap_append]; rfl
    rw [hsv]
    rcases ih _ (runConf_nodup gcs ord fs hn e.1 e.2) hr.2 hs with hs | ⟨r, h1, h2⟩
    · rcases only_step gcs ord ho fs hn e.1 e.2 hr.1 m f hs with hs | ⟨r, k, h1, h2⟩
      · exact .inl hs
      · exact .inr ⟨r, List.mem_append_left _ (by rw [h1]; simp [saves]), h2⟩
    · exact .inr ⟨r, List.mem_append_right _ h1, h2⟩

/-- All saves are done with atomic renames. -/
def AllRename (gcs : Bool) (h : List (Conf × Op)) : Prop := ∀ c r k, (c, Op.save r k) ∈ h → (c.opts gcs).protocol = .atomicRename

/-- Every directory under a name that is not temporary has the commit file. -/
def Clean (fs : FS) : Prop := ∀ m f, hasTmp m = false → get fs m = some (.dir f) → get f commitFile ≠ none

theorem clean_step (gcs : Bool) (ord : List Name → List Name) (ho : ∀ l, (ord l).Perm l) (fs : FS) (hn : (keys fs).Nodup) (c : Conf) (op : Op)
    (hreg : Regular [op]) (ha : AllRename gcs [(c, op)]) (hc : Clean fs) : Clean (runConf gcs ord fs c op).1 := by
  intro m f hm hg
  cases op with
  | save r k =>
    obtain ⟨hforce, htmp, hbody⟩ := hreg r (by simp [saves])
    have hp := ha c r k (by simp)
    by_cases hfree : get fs r.name = none
    · simp only [runConf, saveActs_free _ ord fs r hfree, hp] at hg
      obtain ⟨j, hj⟩ := runCrash_prefix fs (writeActs .atomicRename ord fs r) k
      rw [hj] at hg
      obtain ⟨h1, h2⟩ := write_rename ord fs r hfree (noTmp htmp) j
      by_cases hmr : m = r.name
      · subst hmr
        rcases h2 with h2 | h2
        · rw [h2] at hg; cases hg
        · rw [h2] at hg
          simp only [Option.some.injEq, Node.dir.injEq] at hg
          rw [← hg]; exact contents_committed r
      · rw [h1 m hmr (tmp_ne hm _)] at hg; exact hc m f hm hg
    · simp only [runConf, saveActs_taken _ ord fs r hforce hfree] at hg; exact hc m f hm hg
  | restart k =>
    simp only [runConf] at hg
    obtain ⟨j, hj⟩ := runCrash_prefix fs (cleanupActs ord (c.opts gcs) fs) k
    rw [hj] at hg
    have hfr : get (run fs ((cleanupActs ord (c.opts gcs) fs).take j)).1 m = get fs m := by
      refine run_frame _ _ _ fun a ha => ?_
      obtain ⟨n, hnm, ha⟩ := List.mem_flatMap.mp (List.mem_of_mem_take ha)
      rw [rmtree_touched _ _ _ _ ha, List.mem_singleton]
      rintro rfl
      obtain ⟨x, hx, hxt⟩ := (mem_temporaries _ _ hn _).mp hnm
      obtain ⟨g, rfl⟩ := temporary_dir _ _ _ hxt
      have h2 := committed_some (hc m g hm hx)
      revert hxt
      cases (c.opts gcs) with
      | mk p l => cases p <;> cases l <;> simp_all [isTemporary, validTmp, validFinal, isDir, isLink, hasCommitFile]
    rw [hfr] at hg
    exact hc m f hm hg
  | delete n =>
    simp only [runConf] at hg
    rcases delete_cases ord ho (defaultClass gcs none) (c.opts gcs) fs hn n m with h' | h'
    · rw [h'] at hg; exact hc m f hm hg
    · rw [h'] at hg; cases hg

theorem clean_all (gcs : Bool) (ord : List Name → List Name) (ho : ∀ l, (ord l).Perm l) (h : List (Conf × Op)) :
    ∀ fs : FS, (keys fs).Nodup → Regular (ops h) → AllRename gcs h → Clean fs → Clean (runAll gcs ord fs h) := by
  induction h with
  | nil => intro fs _ _ _ hc; exact hc
  | cons e h ih =>
    intro fs hn hr ha hc
    rw [ops, List.map_cons, regular_cons] at hr
    exact ih _ (runConf_nodup gcs ord fs hn e.1 e.2) hr.2 (fun c r k hm => ha c r k (List.mem_cons_of_mem _ hm))
      (clean_step gcs ord ho fs hn e.1 e.2 hr.1 (fun c r k hm => ha c r k (by simp only [List.mem_singleton] at hm; simp [hm])) hc)

/-! ### Theorems -/

/-- C135: the mode in force: an explicit class decides, then an explicit mode, and otherwise the kind of storage. -/
theorem C135_mode (gcs : Bool) (c : Conf) :
    ((c.opts gcs).protocol = .commitFile ↔
      c.cls = some .commitFile ∨ (c.cls = none ∧ ((∃ l, c.options = some (.commitFile, l)) ∨
        ((c.options = none ∨ ∃ l, c.options = some (.auto, l)) ∧ gcs = true)))) ∧
    ((c.opts gcs).legacy = true ↔ ∃ m, c.options = some (m, true)) := by
  obtain ⟨cls, options⟩ := c
  constructor
  · rcases cls with _ | (_ | _) <;> rcases options with _ | ⟨_ | _ | _, l⟩ <;> cases gcs <;> simp [Conf.opts, defaultClass, explicitClass]
  · rcases options with _ | ⟨m, l⟩ <;> simp [Conf.opts]

/-- C135: a save works as the mode in force says, wherever it is interrupted: with renames its name appears with all the contents or not at all, and with
commit files nothing but its name is touched. -/
theorem C135_save_mode (gcs : Bool) (ord : List Name → List Name) (fs : FS) (c : Conf) (r : SaveReq) (k : Option Nat) (hreg : Regular [.save r k])
    (hfree : get fs r.name = none) :
    ((c.opts gcs).protocol = .atomicRename → get (runConf gcs ord fs c (.save r k)).1 r.name = none ∨
      get (runConf gcs ord fs c (.save r k)).1 r.name = some (.dir (contents r))) ∧
    ((c.opts gcs).protocol = .commitFile → ∀ m, m ≠ r.name → get (runConf gcs ord fs c (.save r k)).1 m = get fs m) := by
  obtain ⟨hforce, htmp, hbody⟩ := hreg r (by simp [saves])
  simp only [runConf, saveActs_free _ ord fs r hfree]
  obtain ⟨j, hj⟩ := runCrash_prefix fs (writeActs (c.opts gcs).protocol ord fs r) k
  rw [hj]
  constructor
  · intro hp
    rw [hp]
    exact (write_rename ord fs r hfree (noTmp htmp) j).2
  · intro hp m hm
    rw [hp]
    exact (write_commit ord fs r hfree hbody j).1 m hm

/-- C135: whatever the options, a directory is either finished or temporary, and never both. -/
theorem C135_told_apart (o : Opts) (n : Name) (f : Files) : isFinalized o n (.dir f) = !isTemporary o n (.dir f) := by
  cases o with
  | mk p l => cases p <;> cases l <;> cases h1 : hasTmp n <;> cases h2 : (get f commitFile).isSome <;>
      simp [isFinalized, isTemporary, validFinal, validTmp, isDir, isLink, hasCommitFile, h1, h2]

/-- C135: with the same options, the interfaces of V0 and of V1 read the same directories. -/
theorem C135_v0_v1 (o : Opts) (fs : FS) (n : Name) (hl : ∀ f, get fs n ≠ some (.link f)) : v0Accepts o n (get fs n) = v1Accepts o n (get fs n) := by
  cases hg : get fs n with
  | none => rfl
  | some x =>
    cases x with
    | file => cases o with
      | mk p l => cases p <;> simp [v0Accepts, v1Accepts, isFinalized, validFinal, isDir]
    | dir f => simp only [v0Accepts, v1Accepts, C135_told_apart, isDir, Bool.true_and]
    | link f => exact absurd hg (hl f)

/-- C135: a save that returned is complete for every program, whatever the options it was saved with and those of the reader, and it stays so through everything
that programs with any options do, including interrupted saves and clean-ups, unless it is deleted. -/
theorem C135_survives (gcs : Bool) (ord : List Name → List Name) (h1 h2 : List (Conf × Op)) (c : Conf) (r : SaveReq)
    (hr : Regular (ops (h1 ++ (c, .save r none) :: h2))) (hok : (runConf gcs ord (runAll gcs ord [] h1) c (.save r none)).2 = true)
    (hd : Op.delete r.name ∉ ops h2) (reader : Conf) :
    Visible (reader.opts gcs) (runAll gcs ord [] (h1 ++ (c, .save r none) :: h2)) r.name (contents r) := by
  rw [ops, List.map_append, List.map_cons, regular_append, regular_cons] at hr
  rw [runAll_append, runAll_cons]
  have hn := runAll_nodup gcs ord h1 [] (by simp [keys])
  exact solid_visible (solid_all gcs ord r.name (contents r) h2 _ (runConf_nodup gcs ord _ hn _ _) hr.2.2 hd (save_solid gcs ord _ c r none hr.2.1 hok)) _

/-- C135: what a program takes for a finished step has all the data of a save that was requested, if the program reads with commit files and without
`allow_legacy_atomic_rename`, whatever the options of the writers; or if all writers used atomic renames, whatever its own options. -/
theorem C135_only_complete (gcs : Bool) (ord : List Name → List Name) (ho : ∀ l, (ord l).Perm l) (h : List (Conf × Op)) (hr : Regular (ops h)) (reader : Conf)
    (hw : ((reader.opts gcs).protocol = .commitFile ∧ (reader.opts gcs).legacy = false) ∨ AllRename gcs h) (m : Name) (hm : ¬ tmpSuffix <:+: m) (f : Files)
    (hv : Visible (reader.opts gcs) (runAll gcs ord [] h) m f) : ∃ r ∈ saves (ops h), r.name = m ∧ SameData f (contents r) := by
  have hs : Solid (runAll gcs ord [] h) m f := by
    refine ⟨hv.1, ?_, noTmp hm⟩
    rcases hw with ⟨hp, hl⟩ | hw
    · have ho' : reader.opts gcs = commitOpts := by
        cases ho'' : reader.opts gcs with
        | mk p l => rw [ho''] at hp hl; cases hp; cases hl; rfl
      rw [ho'] at hv
      exact ((visible_commit _ _ _).1 hv).2
    · exact clean_all gcs ord ho h [] (by simp [keys]) hr hw (fun m f _ hg => by simp at hg) m f (noTmp hm) hv.1
  rcases only_all gcs ord ho m f h [] (by simp [keys]) hr hs with hs | hs
  · have := hs.there; simp at this
  · exact hs

/-- C135: a clean-up, whatever its options, keeps everything it takes for finished, files and links, and leaves no directory that it does not take for finished. -/
theorem C135_cleanup (gcs : Bool) (ord : List Name → List Name) (ho : ∀ l, (ord l).Perm l) (fs : FS) (hn : (keys fs).Nodup) (c : Conf) (m : Name) :
    (runConf gcs ord fs c (.restart none)).2 = true ∧
    (∀ x, get fs m = some x → (isFinalized (c.opts gcs) m x = true ∨ ∀ f, x ≠ .dir f) → get (runConf gcs ord fs c (.restart none)).1 m = some x) ∧
    (∀ f, get (runConf gcs ord fs c (.restart none)).1 m = some (.dir f) → get fs m = some (.dir f) ∧ isFinalized (c.opts gcs) m (.dir f) = true) := by
  obtain ⟨h1, h2⟩ := cleanup_spec ord ho (c.opts gcs) fs hn
  have hmem := mem_temporaries (c.opts gcs) fs hn m
  refine ⟨h1, fun x hx hf => ?_, fun f hg => ?_⟩
  · simp only [runConf, runCrash]
    rw [h2, if_neg, hx]
    intro hm
    obtain ⟨y, hy, hyt⟩ := hmem.1 hm
    obtain ⟨g, rfl⟩ := temporary_dir _ _ _ hyt
    rw [hx] at hy
    cases hy
    rcases hf with hf | hf
    · rw [C135_told_apart, hyt] at hf; cases hf
    · exact hf g rfl
  · simp only [runConf, runCrash] at hg
    rw [h2] at hg
    split at hg
    · cases hg
    · rename_i hnt
      refine ⟨hg, ?_⟩
      rw [C135_told_apart]
      cases ht : isTemporary (c.opts gcs) m (.dir f) with
      | false => rfl
      | true => exact absurd (hmem.2 ⟨_, hg, ht⟩) hnt

/-- C135: after a clean-up, a program can save a step, whatever other programs left behind, unless the program takes the step for finished. -/
theorem C135_retry (gcs : Bool) (ord : List Name → List Name) (ho : ∀ l, (ord l).Perm l) (h : List (Conf × Op)) (c : Conf) (r : SaveReq)
    (ht : ¬ tmpSuffix <:+: r.name) :
    let fs := (runConf gcs ord (runAll gcs ord [] h) c (.restart none)).1
    (∃ f, Visible (c.opts gcs) fs r.name f) ∨
      ((runConf gcs ord fs c (.save r none)).2 = true ∧ Visible (c.opts gcs) (runConf gcs ord fs c (.save r none)).1 r.name (contents r)) := by
  intro fs
  have hn := runAll_nodup gcs ord h [] (by simp [keys])
  have hd : AllDirs fs := runConf_dirs gcs ord _ (runAll_dirs gcs ord h [] (fun m x hx => by simp at hx)) _ _
  cases hg : get fs r.name with
  | some x =>
    obtain ⟨f, rfl⟩ := hd _ _ hg
    exact .inl ⟨f, hg, ((C135_cleanup gcs ord ho _ hn c r.name).2.2 f hg).2⟩
  | none =>
    right
    have key : (run fs (writeActs (c.opts gcs).protocol ord fs r)).2 = true ∧
        get (run fs (writeActs (c.opts gcs).protocol ord fs r)).1 r.name = some (.dir (contents r)) := by
      cases (c.opts gcs).protocol with
      | atomicRename =>
        have hleft : get fs (r.name ++ tmpSuffix) = none ∨ ∃ f, get fs (r.name ++ tmpSuffix) = some (.dir f) := by
          cases hx : get fs (r.name ++ tmpSuffix) with
          | none => exact .inl rfl
          | some x => obtain ⟨f, rfl⟩ := hd _ _ hx; exact .inr ⟨f, rfl⟩
        have := C18_completes ord ho fs r hg ht hleft _ (saveActs_free _ _ _ _ hg)
        exact ⟨this.1, this.2.1⟩
      | commitFile =>
        have := C19_completes ord ho fs r hg _ (saveActs_free _ _ _ _ hg)
        exact ⟨this.1, this.2.1⟩
    simp only [runConf, saveActs_free _ ord fs r hg, runCrash]
    exact ⟨key.1, solid_visible ⟨key.2, contents_committed r, noTmp ht⟩ _⟩

/-- C135: with `allow_legacy_atomic_rename`, checkpoints that have no commit file, as of versions that did not write it, are read and are kept by clean-ups. -/
theorem C135_legacy (gcs : Bool) (ord : List Name → List Name) (ho : ∀ l, (ord l).Perm l) (fs : FS) (hn : (keys fs).Nodup) (c : Conf)
    (hl : (c.opts gcs).legacy = true) (m : Name) (hm : ¬ tmpSuffix <:+: m) (f : Files) (hg : get fs m = some (.dir f)) :
    Visible (c.opts gcs) fs m f ∧ Visible (c.opts gcs) (runConf gcs ord fs c (.restart none)).1 m f := by
  have hv : isFinalized (c.opts gcs) m (.dir f) = true := by
    have h1 := noTmp hm
    revert hl
    cases (c.opts gcs) with
    | mk p l => cases p <;> simp_all [isFinalized, validFinal, isDir]
  exact ⟨⟨hg, hv⟩, (C135_cleanup gcs ord ho fs hn c m).2.1 _ hg (.inl hv), hv⟩

/-! ### Findings -/

/-- C135 (finding): without that flag a program that changes to commit files deletes such checkpoints when it starts, complete as they are. -/
theorem C135_old_checkpoint_fails (gcs : Bool) (ord : List Name → List Name) (ho : ∀ l, (ord l).Perm l) (fs : FS) (hn : (keys fs).Nodup) (m : Name) (f : Files)
    (hg : get fs m = some (.dir f)) (hc : get f commitFile = none) :
    get (runConf gcs ord fs ⟨none, some (.commitFile, false)⟩ (.restart none)).1 m = none :=
  (C21_cleanup_commit ord ho fs hn m).1 f hg hc

/-- C135 (finding): a save with commit files that is interrupted is a finished checkpoint, without data, for programs with default options on a file system
and for programs with `allow_legacy_atomic_rename`; they do not clean it up, and the step cannot be saved again. -/
theorem C135_interrupted_fails (ord : List Name → List Name) (ho : ∀ l, (ord l).Perm l) (fs : FS) (hn : (keys fs).Nodup) (r : SaveReq)
    (hfree : get fs r.name = none) (ht : ¬ tmpSuffix <:+: r.name) (hforce : r.force = false) (reader : Conf)
    (hr : reader = ⟨none, none⟩ ∨ reader = ⟨none, some (.commitFile, true)⟩) :
    let fs1 := (runConf false ord fs ⟨none, some (.commitFile, false)⟩ (.save r (some 1))).1
    Visible (reader.opts false) fs1 r.name [] ∧ Visible (reader.opts false) (runConf false ord fs1 reader (.restart none)).1 r.name [] ∧
    (runConf false ord (runConf false ord fs1 reader (.restart none)).1 reader (.save r none)).2 = false := by
  intro fs1
  have hfs : fs1 = put fs r.name (.dir []) := by
    show (runConf false ord fs ⟨none, some (.commitFile, false)⟩ (.save r (some 1))).1 = _
    simp [runConf, Conf.opts, defaultClass, explicitClass, saveActs_free _ ord fs r hfree, runCrash, writeActs, createActs, tmpName, exist, hfree, run, exec]
  have hn1 : (keys fs1).Nodup := runConf_nodup false ord fs hn _ _
  have hg1 : get fs1 r.name = some (.dir []) := by rw [hfs]; simp
  have hf1 : isFinalized (reader.opts false) r.name (.dir []) = true := by
    have := noTmp ht
    rcases hr with rfl | rfl <;> simp_all [isFinalized, validFinal, isDir, Conf.opts, defaultClass, explicitClass]
  have hg2 := (C135_cleanup false ord ho fs1 hn1 reader r.name).2.1 _ hg1 (.inl hf1)
  refine ⟨⟨hg1, hf1⟩, ⟨hg2, hf1⟩, ?_⟩
  generalize (runConf false ord fs1 reader (.restart none)).1 = fs2 at hg2
  simp only [runConf, saveActs_taken _ ord fs2 r hforce (by rw [hg2]; simp)]

/-- C135 (finding): the left-over of a save with atomic renames that stopped just before the rename is a finished checkpoint, under its temporary name,
for a program with commit files, which never cleans it up. -/
theorem C135_leftover_fails (gcs : Bool) (ord : List Name → List Name) (ho : ∀ l, (ord l).Perm l) (fs : FS) (hn : (keys fs).Nodup) (r : SaveReq)
    (hg : get fs (r.name ++ tmpSuffix) = some (.dir (contents r))) (legacy : Bool) :
    get (runConf gcs ord fs ⟨none, some (.commitFile, legacy)⟩ (.restart none)).1 (r.name ++ tmpSuffix) = some (.dir (contents r)) ∧
    v0Accepts (Conf.opts gcs ⟨none, some (.commitFile, legacy)⟩) (r.name ++ tmpSuffix) (get fs (r.name ++ tmpSuffix)) = true := by
  have hc := committed_some (contents_committed r)
  have hf : isFinalized (Conf.opts gcs ⟨none, some (.commitFile, legacy)⟩) (r.name ++ tmpSuffix) (.dir (contents r)) = true := by
    simp [isFinalized, validFinal, isDir, hasCommitFile, hc, Conf.opts, defaultClass, explicitClass]
  refine ⟨(C135_cleanup gcs ord ho fs hn _ _).2.1 _ hg (.inl hf), ?_⟩
  rw [hg]; exact hf

/-- C135 (finding): a symbolic link to an incomplete checkpoint is refused by V0 and read by V1. -/
theorem C135_link_fails (n : Name) (f : Files) (hc : get f commitFile = none) :
    v0Accepts commitOpts n (some (.link f)) = false ∧ v1Accepts commitOpts n (some (.link f)) = true := by
  simp [v0Accepts, v1Accepts, isFinalized, isTemporary, validFinal, validTmp, isDir, isLink, hasCommitFile, hc]

/-- C135 (finding): deleting a step ignores the options: on a file system an incomplete checkpoint of a program with commit files stays although `delete`
returns, while on Google Cloud Storage it is removed. -/
theorem C135_delete_fails (ord : List Name → List Name) (ho : ∀ l, (ord l).Perm l) (n : Name) (f : Files) (hm : ¬ tmpSuffix <:+: n)
    (hc : get f commitFile = none) :
    runConf false ord [(n, .dir f)] ⟨none, some (.commitFile, false)⟩ (.delete n) = ([(n, .dir f)], true) ∧
    get (runConf true ord [(n, .dir f)] ⟨none, some (.commitFile, false)⟩ (.delete n)).1 n = none := by
  have h1 := noTmp hm
  have hg : Assoc.get [(n, Node.dir f)] n = some (.dir f) := by simp [Assoc.get]
  constructor
  · simp [runConf, delete, findTarget, temporaries, isTemporary, validTmp, isFinalized, validFinal, isDir, isLink, hasCommitFile, h1, hc, defaultClass,
      explicitClass, Conf.opts, hg]
  · have ht : findTarget .commitFile commitOpts [(n, .dir f)] n = some n := by
      simp [findTarget, temporaries, isTemporary, validTmp, isDir, isLink, hasCommitFile, hc, finalName]
    have hc' : Conf.opts true ⟨none, some (.commitFile, false)⟩ = commitOpts := rfl
    have hd : defaultClass true none = .commitFile := rfl
    simp only [runConf, hc', hd, delete, Bool.not_true, Bool.false_eq_true, if_false, ht]
    exact (run_rmtree ord ho _ _ n f hg hg).2

/-! ### Non-vacuity -/

/-- Step 1 with the default, an interrupted save of step 2 with the default, step 3 with commit files, a clean-up and a retry of step 2 by that program. -/
def demoModes : List (Conf × Op) :=
  [(⟨none, none⟩, .save (hSave "1".toList 1) none), (⟨none, none⟩, .save (hSave "2".toList 2) (some 3)),
   (⟨none, some (.commitFile, false)⟩, .save (hSave "3".toList 3) none), (⟨none, some (.commitFile, false)⟩, .restart none),
   (⟨none, some (.commitFile, false)⟩, .save (hSave "2".toList 2) none)]

/-- C135: the hypotheses are met: the saves are regular and return, the root has exactly the three steps, which every reader sees. -/
theorem C135_nonvacuous : Regular (ops demoModes) ∧
    (runConf false id (runAll false id [] []) ⟨none, none⟩ (.save (hSave "1".toList 1) none)).2 = true ∧ Op.delete "1".toList ∉ ops demoModes ∧
    keys (runAll false id [] demoModes) = ["1".toList, "3".toList, "2".toList] ∧
    Visible (Conf.opts false ⟨none, some (.commitFile, true)⟩) (runAll false id [] demoModes) "2".toList (contents (hSave "2".toList 2)) ∧
    Visible (Conf.opts false ⟨some .atomicRename, none⟩) (runAll false id [] demoModes) "3".toList (contents (hSave "3".toList 3)) ∧
    AllRename false (demoModes.take 2) := by
  refine ⟨?_, by decide, by decide, by decide, ⟨by decide, by decide⟩, ⟨by decide, by decide⟩, ?_⟩
  · intro r hr
    have : r = hSave "1".toList 1 ∨ r = hSave "2".toList 2 ∨ r = hSave "3".toList 3 ∨ r = hSave "2".toList 2 := by
      simpa [ops, demoModes, saves] using hr
    rcases this with rfl | rfl | rfl | rfl <;> refine ⟨rfl, ?_, by decide⟩ <;> rw [← hasTmp_iff] <;> decide
  · intro c r k h
    simp only [demoModes, List.take, List.mem_cons, Prod.mk.injEq, List.not_mem_nil, or_false] at h
    rcases h with ⟨rfl, -⟩ | ⟨rfl, -⟩ <;> rfl

end Verif.Store
