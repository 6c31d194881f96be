import Verif.Store.DeleteProps

/-!
# Crash recovery over whole histories (C22)

A history is any sequence of saves (each possibly crashing at any storage action), restarts (each with a
clean-up that may crash as well) and deletions.  `Visible` and `SameData` are as in `Verif.Store.Props`.
-/

namespace Verif.Store

open Verif.NameFormat (Name tmpSuffix)
open Verif.Assoc

/-- The saves requested in a history. -/
def saves (h : List Op) : List SaveReq :=
  h.filterMap fun
    | .save r _ => some r
    | _ => none

/-- The histories considered: saves do not overwrite (`force`, see C20), their names are step names (no
temporary suffix), and handlers do not write the commit marker themselves. -/
def Regular (h : List Op) : Prop :=
  ∀ r ∈ saves h, r.force = false ∧ ¬ tmpSuffix <:+: r.name ∧ ∀ o ∈ r.body, o.target ≠ commitFile

/-- Only directories. -/
def AllDirs (fs : FS) : Prop := ∀ m x, get fs m = some x → ∃ f, x = .dir f

theorem exec_dirs (fs fs' : FS) (a : Act) (h : exec fs a = some fs') (hd : AllDirs fs) : AllDirs fs' := by
  have hput : ∀ (g : FS) n f, AllDirs g → AllDirs (put g n (.dir f)) := by
    intro g n f hg m x hx
    rw [get_put] at hx
    split at hx
    · simp only [Option.some.injEq] at hx; exact ⟨f, hx.symm⟩
    · exact hg m x hx
  have hdel : ∀ (g : FS) n, AllDirs g → AllDirs (del g n) := by
    intro g n hg m x hx
    rw [get_del] at hx
    split at hx
    · cases hx
    · exact hg m x hx
  cases a <;> simp only [exec] at h <;> split at h
  all_goals first
    | (simp at h; done)
    | (simp only [Option.some.injEq] at h; subst h
       first | exact hput _ _ _ hd | exact hdel _ _ hd)
    | (split at h
       all_goals first
        | (simp at h; done)
        | (simp only [Option.some.injEq] at h; subst h; exact hput _ _ _ (hdel _ _ hd)))

theorem run_dirs (fs : FS) (as : List Act) (hd : AllDirs fs) : AllDirs (run fs as).1 := by
  induction as generalizing fs with
  | nil => exact hd
  | cons a as ih =>
    simp only [run]
    cases he : exec fs a with
    | none => exact hd
    | some fs' => exact ih fs' (exec_dirs fs fs' a he hd)

/-- A crashed or completed run is the run of a prefix. -/
theorem runCrash_prefix (fs : FS) (acts : List Act) (c : Option Nat) :
    ∃ k, (runCrash fs acts c).1 = (run fs (acts.take k)).1 := by
  cases c with
  | none => exact ⟨acts.length, by simp [runCrash]⟩
  | some k => exact ⟨k, rfl⟩

/-- What one event can do to the visible checkpoints, for both protocols. -/
theorem runOp_visible (p : Protocol) (ord : List Name → List Name) (ho : ∀ l, (ord l).Perm l) (fs : FS) (hn : (keys fs).Nodup)
    (op : Op) (hreg : Regular [op]) (m : Name) (f : Files) :
    (Visible ⟨p, false⟩ fs m f → op ≠ .delete m → Visible ⟨p, false⟩ (runOp p ord fs op).1 m f) ∧
    (Visible ⟨p, false⟩ (runOp p ord fs op).1 m f → Visible ⟨p, false⟩ fs m f ∨
      ∃ r c, op = .save r c ∧ r.name = m ∧ SameData f (contents r)) := by
  cases op with
  | save r c =>
    obtain ⟨hforce, htmp, hbody⟩ := hreg r (by simp [saves])
    by_cases hfree : get fs r.name = none
    · have hs := saveActs_free p ord fs r hfree
      simp only [runOp, hs]
      obtain ⟨k, hk⟩ := runCrash_prefix fs (writeActs p ord fs r) c
      rw [hk]
      cases p with
      | atomicRename =>
        obtain ⟨h1, h2⟩ := C18_crash_safe ord fs r hfree htmp _ hs k m f
        refine ⟨fun hv _ => h1 hv, fun hv => ?_⟩
        rcases h2 hv with h | ⟨h, h'⟩
        · exact .inl h
        · subst h'
          exact .inr ⟨r, c, rfl, h.symm, fun _ _ => rfl⟩
      | commitFile =>
        obtain ⟨h1, h2⟩ := C19_crash_safe ord fs r hfree hbody _ hs k m f
        refine ⟨fun hv _ => h1 hv, fun hv => ?_⟩
        rcases h2 hv with h | ⟨h, h'⟩
        · exact .inl h
        · exact .inr ⟨r, c, rfl, h.symm, h'⟩
    · have hs : saveActs p ord fs r = none := by
        cases hg : get fs r.name with
        | none => exact absurd hg hfree
        | some x => simp [saveActs, exist, hg, hforce]
      simp only [runOp, hs]
      exact ⟨fun hv _ => hv, fun hv => .inl hv⟩
  | restart c =>
    simp only [runOp]
    obtain ⟨k, hk⟩ := runCrash_prefix fs (cleanupActs ord ⟨p, false⟩ fs) c
    rw [hk]
    refine ⟨fun hv _ => ⟨C21_cleanup_crash ord ⟨p, false⟩ fs hn _ (fun a h => h) m _ hv.1 hv.2 k, hv.2⟩,
      fun hv => .inl ?_⟩
    refine ⟨?_, hv.2⟩
    by_cases hmt : m ∈ temporaries ⟨p, false⟩ fs
    · exfalso
      -- a temporary entry is never finalized, whatever remains of it
      obtain ⟨x, hx, hxt⟩ := (mem_temporaries _ _ hn _).mp hmt
      obtain ⟨g, rfl⟩ := temporary_dir _ _ _ hxt
      cases p with
      | atomicRename =>
        have := hv.2
        simp [isFinalized, validFinal, isDir] at this
        simp [isTemporary, validTmp, isDir, isLink, this] at hxt
      | commitFile =>
        have hc : ∀ as fs', (∀ a ∈ as, (∃ n, a = Act.rmdir n) ∨ ∃ n y, a = Act.op n (.unlink y)) →
            (∀ g, get fs' m = some (.dir g) → get g commitFile = none) →
            ∀ g, get (run fs' as).1 m = some (.dir g) → get g commitFile = none := by
          intro as
          induction as with
          | nil => intro fs' _ h g hg; exact h g hg
          | cons a as ih =>
            intro fs' has h g hg
            simp only [run] at hg
            cases he : exec fs' a with
            | none => rw [he] at hg; exact h g hg
            | some fs'' =>
              rw [he] at hg
              refine ih fs'' (fun b hb => has b (List.mem_cons_of_mem _ hb)) ?_ g hg
              intro g' hg'
              by_cases htm : m ∈ touched a
              · rcases has a List.mem_cons_self with ⟨n, rfl⟩ | ⟨n, y, rfl⟩
                · simp only [touched, List.mem_singleton] at htm; subst htm
                  simp only [exec] at he
                  split at he <;> simp at he
                  rw [← he] at hg'; simp at hg'
                · simp only [touched, List.mem_singleton] at htm; subst htm
                  simp only [exec] at he
                  split at he
                  · rename_i g0 hg0
                    simp only [Option.some.injEq] at he
                    rw [← he, get_put_self] at hg'
                    simp only [Option.some.injEq, Node.dir.injEq] at hg'
                    rw [← hg']
                    simp only [applyOp, get_del]
                    split
                    · rfl
                    · exact h g0 hg0
                  · cases he
              · rw [exec_frame fs' fs'' a he m htm] at hg'
                exact h g' hg'
        have hg0 : get g commitFile = none := by
          simp [isTemporary, validTmp, isDir, isLink, hasCommitFile] at hxt
          exact hxt
        have hfin := hv.2
        have := hc ((cleanupActs ord ⟨.commitFile, false⟩ fs).take k) fs (by
          intro a ha
          obtain ⟨n, _, ha⟩ := List.mem_flatMap.mp (List.mem_of_mem_take ha)
          unfold rmtreeActs at ha
          split at ha
          · rcases List.mem_append.mp ha with ha | ha
            · obtain ⟨y, _, rfl⟩ := List.mem_map.mp ha; exact .inr ⟨n, y, rfl⟩
            · simp at ha; exact .inl ⟨n, ha⟩
          · simp at ha; exact .inl ⟨n, ha⟩) (by
          intro g' hg'
          rw [hx] at hg'
          simp only [Option.some.injEq, Node.dir.injEq] at hg'
          rw [← hg']; exact hg0) f hv.1
        simp [isFinalized, validFinal, hasCommitFile, this] at hfin
    · have hfr : get (run fs ((cleanupActs ord ⟨p, false⟩ fs).take k)).1 m = get fs m := by
        refine run_frame _ _ _ fun a ha => ?_
        obtain ⟨n, hnm, ha⟩ := List.mem_flatMap.mp (List.mem_of_mem_take ha)
        rw [rmtree_touched _ _ _ _ ha, List.mem_singleton]
        rintro rfl
        exact hmt hnm
      rw [← hfr]; exact hv.1
  | delete n =>
    simp only [runOp]
    by_cases hmn : m = n
    · subst hmn
      refine ⟨fun _ hne => absurd rfl hne, fun hv => .inl ?_⟩
      -- the entry is unchanged, or gone
      unfold delete at hv
      simp only [Bool.not_true, Bool.false_eq_true, if_false] at hv
      split at hv
      · exact hv
      · rename_i t ht
        simp only at hv
        by_cases hmt : m = t
        · subst hmt
          exfalso
          rcases findTarget_some p ⟨p, false⟩ fs hn m m ht with ⟨g, hg, hgv, _⟩ | ⟨_, x, hx, hxf⟩
          · -- temporary and final at once
            have hgone : get fs m = some (.dir g) := hg
            have hfin := hv.2
            cases p with
            | atomicRename =>
              simp [isFinalized, validFinal, isDir] at hfin
              simp [validTmp, isDir, isLink, hfin] at hgv
            | commitFile => 
              have := (run_rmtree ord ho fs fs m g hgone hgone).2
              rw [hv.1] at this; cases this
          · cases x with
            | dir g => 
              have := (run_rmtree ord ho fs fs m g hx hx).2
              rw [hv.1] at this; cases this
            | file => cases p <;> simp [isFinalized, validFinal, isDir] at hxf
            | link g =>
              have : rmtreeActs ord fs m = [.rmdir m] := by simp [rmtreeActs, hx]
              rw [this] at hv
              simp [run, exec, hx, Visible] at hv
        · refine ⟨?_, hv.2⟩
          rw [← hv.1, run_frame]
          intro a ha
          rw [rmtree_touched _ _ _ _ ha]; simpa using hmt
    · have key : ¬ LeftOver p fs m n → get (delete ord true .permanent p ⟨p, false⟩ ⟨fs, []⟩ n).1.root m = get fs m :=
        fun hl => (C24_only_that_step ord true .permanent p ⟨p, false⟩ ⟨fs, []⟩ hn n m hmn hl).1
      have hvl : ∀ g, isFinalized ⟨p, false⟩ m (.dir g) = true → get fs m = some (.dir g) → ¬ LeftOver p fs m n := by
        rintro g hgf hgg ⟨g', hg', hv', _⟩
        rw [hgg] at hg'
        simp only [Option.some.injEq, Node.dir.injEq] at hg'
        subst hg'
        cases p <;> simp_all [isFinalized, validFinal, validTmp, isDir, isLink]
      constructor
      · intro hv _
        exact ⟨by rw [key (hvl f hv.2 hv.1)]; exact hv.1, hv.2⟩
      · intro hv
        left
        refine ⟨?_, hv.2⟩
        by_cases hl : LeftOver p fs m n
        · exfalso
          obtain ⟨g, hg, hgv, hgf⟩ := hl
          cases p with
          | atomicRename =>
            have hfin := hv.2
            simp [isFinalized, validFinal, isDir] at hfin
            simp [validTmp, isDir, isLink, hfin] at hgv
          | commitFile =>
            simp only [finalName, Option.some.injEq] at hgf
            exact hmn hgf
        · rw [← key hl]; exact hv.1

theorem runOp_nodup (p : Protocol) (ord : List Name → List Name) (fs : FS) (hn : (keys fs).Nodup) (op : Op) :
    (keys (runOp p ord fs op).1).Nodup := by
  cases op with
  | save r c =>
    simp only [runOp]
    split
    · exact hn
    · rename_i acts _
      obtain ⟨k, hk⟩ := runCrash_prefix fs acts c
      rw [hk]; exact run_nodup _ _ hn
  | restart c =>
    simp only [runOp]
    obtain ⟨k, hk⟩ := runCrash_prefix fs (cleanupActs ord ⟨p, false⟩ fs) c
    rw [hk]; exact run_nodup _ _ hn
  | delete n =>
    simp only [runOp, delete, Bool.not_true, Bool.false_eq_true, if_false]
    split
    · exact hn
    · exact run_nodup _ _ hn

theorem runOp_dirs (p : Protocol) (ord : List Name → List Name) (fs : FS) (hd : AllDirs fs) (op : Op) :
    AllDirs (runOp p ord fs op).1 := by
  cases op with
  | save r c =>
    simp only [runOp]
    split
    · exact hd
    · rename_i acts _
      obtain ⟨k, hk⟩ := runCrash_prefix fs acts c
      rw [hk]; exact run_dirs _ _ hd
  | restart c =>
    simp only [runOp]
    obtain ⟨k, hk⟩ := runCrash_prefix fs (cleanupActs ord ⟨p, false⟩ fs) c
    rw [hk]; exact run_dirs _ _ hd
  | delete n =>
    simp only [runOp, delete, Bool.not_true, Bool.false_eq_true, if_false]
    split
    · exact hd
    · exact run_dirs _ _ hd

theorem runOps_cons (p : Protocol) (ord : List Name → List Name) (fs : FS) (op : Op) (h : List Op) :
    runOps p ord fs (op :: h) = runOps p ord (runOp p ord fs op).1 h := rfl

theorem runOps_append (p : Protocol) (ord : List Name → List Name) (fs : FS) (h h' : List Op) :
    runOps p ord fs (h ++ h') = runOps p ord (runOps p ord fs h) h' := by
  simp [runOps]

theorem runOps_nodup (p : Protocol) (ord : List Name → List Name) (fs : FS) (hn : (keys fs).Nodup) (h : List Op) :
    (keys (runOps p ord fs h)).Nodup := by
  induction h generalizing fs with
  | nil => exact hn
  | cons op h ih => rw [runOps_cons]; exact ih _ (runOp_nodup p ord fs hn op)

theorem runOps_dirs (p : Protocol) (ord : List Name → List Name) (fs : FS) (hd : AllDirs fs) (h : List Op) :
    AllDirs (runOps p ord fs h) := by
  induction h generalizing fs with
  | nil => exact hd
  | cons op h ih => rw [runOps_cons]; exact ih _ (runOp_dirs p ord fs hd op)

theorem regular_cons (op : Op) (h : List Op) : Regular (op :: h) ↔ Regular [op] ∧ Regular h := by
  have : saves (op :: h) = saves [op] ++ saves h := by
    unfold saves
    rw [← List.filterMap_append]; rfl
  unfold Regular
  rw [this]
  simp only [List.mem_append]
  constructor
  · intro hr; exact ⟨fun r hm => hr r (.inl hm), fun r hm => hr r (.inr hm)⟩
  · rintro ⟨h1, h2⟩ r (hm | hm)
    · exact h1 r hm
    · exact h2 r hm

theorem regular_append (h h' : List Op) : Regular (h ++ h') ↔ Regular h ∧ Regular h' := by
  have : saves (h ++ h') = saves h ++ saves h' := by
    unfold saves
    rw [List.filterMap_append]
  unfold Regular
  rw [this]
  simp only [List.mem_append]
  constructor
  · intro hr; exact ⟨fun r hm => hr r (.inl hm), fun r hm => hr r (.inr hm)⟩
  · rintro ⟨h1, h2⟩ r (hm | hm)
    · exact h1 r hm
    · exact h2 r hm

/-- Everything visible after a history was visible before, or is what some save was meant to produce. -/
theorem runOps_visible (p : Protocol) (ord : List Name → List Name) (ho : ∀ l, (ord l).Perm l) (h : List Op) :
    ∀ (fs : FS), (keys fs).Nodup → Regular h → ∀ m f,
    (Visible ⟨p, false⟩ fs m f → Op.delete m ∉ h → Visible ⟨p, false⟩ (runOps p ord fs h) m f) ∧
    (Visible ⟨p, false⟩ (runOps p ord fs h) m f → Visible ⟨p, false⟩ fs m f ∨
      ∃ r ∈ saves h, r.name = m ∧ SameData f (contents r)) := by
  induction h with
  | nil => intro fs _ _ m f; exact ⟨fun hv _ => hv, fun hv => .inl hv⟩
  | cons op h ih =>
    intro fs hn hr m f
    obtain ⟨hr1, hr2⟩ := (regular_cons op h).mp hr
    obtain ⟨a1, a2⟩ := runOp_visible p ord ho fs hn op hr1 m f
    obtain ⟨b1, b2⟩ := ih _ (runOp_nodup p ord fs hn op) hr2 m f
    rw [runOps_cons]
    constructor
    · intro hv hd
      simp only [List.mem_cons, not_or] at hd
      exact b1 (a1 hv (Ne.symm hd.1)) hd.2
    · intro hv
      rcases b2 hv with h' | ⟨r, hr', h1, h2⟩
      · rcases a2 h' with h'' | ⟨r, c, rfl, h1, h2⟩
        · exact .inl h''
        · exact .inr ⟨r, by simp [saves], h1, h2⟩
      · refine .inr ⟨r, ?_, h1, h2⟩
        unfold saves at hr' ⊢
        rw [List.filterMap_cons]
        split
        · exact hr'
        · exact List.mem_cons_of_mem _ hr'

/-- A save that returns normally has made the step visible with its intended contents. -/
theorem save_returned (p : Protocol) (ord : List Name → List Name) (fs : FS) (r : SaveReq) (c : Option Nat)
    (hreg : Regular [.save r c]) (hok : (runOp p ord fs (.save r c)).2 = true) :
    Visible ⟨p, false⟩ (runOp p ord fs (.save r c)).1 r.name (contents r) := by
  obtain ⟨hforce, htmp, hbody⟩ := hreg r (by simp [saves])
  by_cases hfree : get fs r.name = none
  · have hs := saveActs_free p ord fs r hfree
    simp only [runOp, hs] at hok ⊢
    cases c with
    | some k => simp [runCrash] at hok
    | none =>
      simp only [runCrash] at hok ⊢
      rw [writeActs_eq] at hok ⊢
      rw [run_append] at hok ⊢
      by_cases hb : (run fs (bodyActs p ord fs r)).2 = true
      · rw [if_pos hb] at hok ⊢
        have hget := body_ok p ord fs r hb
        cases p with
        | atomicRename =>
          have hne : r.name ≠ tmpName .atomicRename r.name := fun h =>
            tmpName_ne r.name (by rw [← Bool.not_eq_true, hasTmp_iff]; exact htmp) h.symm
          have hfr : get (run fs (bodyActs .atomicRename ord fs r)).1 r.name = none := by
            rw [run_frame, hfree]
            intro a ha
            rw [body_touched _ _ _ _ _ ha]
            simpa using hne
          rw [visible_rename]
          simp only [commitActs, run, exec, hget, hfr]
          exact ⟨get_put_self _ _ _, htmp⟩
        | commitFile =>
          rw [visible_commit]
          refine ⟨hget, ?_⟩
          unfold contents saveOps
          rw [applyOps_append]
          simp [applyOps, applyOp]
      · rw [if_neg hb] at hok
        exact absurd hok hb
  · exfalso
    have hs : saveActs p ord fs r = none := by
      cases hg : get fs r.name with
      | none => exact absurd hg hfree
      | some x => simp [saveActs, exist, hg, hforce]
    simp only [runOp, hs] at hok
    cases hok

/-- **C22** nothing but completed contents: after any history, starting from an empty directory, every
visible step holds exactly the data of some save of that step that was requested in the history — never
partial data, whatever crashed. -/
theorem C22_only_complete_steps (p : Protocol) (ord : List Name → List Name) (ho : ∀ l, (ord l).Perm l) (h : List Op)
    (hr : Regular h) (m : Name) (f : Files) (hv : Visible ⟨p, false⟩ (runOps p ord [] h) m f) :
    ∃ r ∈ saves h, r.name = m ∧ SameData f (contents r) := by
  rcases (runOps_visible p ord ho h [] (by simp [keys]) hr m f).2 hv with hv' | hv'
  · cases hv'.1
  · exact hv'

/-- **C22** nothing completed is lost: a save that returned normally is visible with exactly its contents
after any further history in which the step is not deleted. -/
theorem C22_completed_saves_survive (p : Protocol) (ord : List Name → List Name) (ho : ∀ l, (ord l).Perm l)
    (h1 h2 : List Op) (r : SaveReq) (hr : Regular (h1 ++ .save r none :: h2))
    (hok : (runOp p ord (runOps p ord [] h1) (.save r none)).2 = true) (hd : Op.delete r.name ∉ h2) :
    Visible ⟨p, false⟩ (runOps p ord [] (h1 ++ .save r none :: h2)) r.name (contents r) := by
  obtain ⟨_, hr'⟩ := (regular_append _ _).mp hr
  obtain ⟨hr1, hr2⟩ := (regular_cons _ _).mp hr'
  rw [runOps_append, runOps_cons]
  have hn := runOps_nodup p ord [] (by simp [keys]) h1
  exact (runOps_visible p ord ho h2 _ (runOp_nodup p ord _ hn _) hr2 _ _).1
    (save_returned p ord _ r none hr1 hok) hd

/-- **C22** a restart recovers: after any history that ends with a restart whose clean-up ran, the
directory contains nothing but visible steps, each with the data of a requested save. -/
theorem C22_restart_recovers (p : Protocol) (ord : List Name → List Name) (ho : ∀ l, (ord l).Perm l) (h : List Op)
    (hr : Regular h) (m : Name) (x : Node) (hx : get (runOps p ord [] (h ++ [.restart none])) m = some x) :
    ∃ f, x = .dir f ∧ Visible ⟨p, false⟩ (runOps p ord [] (h ++ [.restart none])) m f ∧
      ∃ r ∈ saves h, r.name = m ∧ SameData f (contents r) := by
  have hreg : Regular (h ++ [.restart none]) := (regular_append _ _).mpr ⟨hr, by simp [Regular, saves]⟩
  have hsv : saves (h ++ [.restart none]) = saves h := by simp [saves]
  obtain ⟨f, rfl⟩ := runOps_dirs p ord [] (by intro m x hx; cases hx) (h ++ [.restart none]) m x hx
  have hv : Visible ⟨p, false⟩ (runOps p ord [] (h ++ [.restart none])) m f := by
    refine ⟨hx, ?_⟩
    rw [runOps_append] at hx
    have hn := runOps_nodup p ord [] (by simp [keys]) h
    have hx' : get (run (runOps p ord [] h) (cleanupActs ord ⟨p, false⟩ (runOps p ord [] h))).1 m = some (.dir f) := hx
    rw [(cleanup_spec ord ho ⟨p, false⟩ _ hn).2] at hx'
    split at hx'
    · cases hx'
    · rename_i hnt
      have hnt' : isTemporary ⟨p, false⟩ m (.dir f) = false := by
        rw [← Bool.not_eq_true]
        intro ht
        exact hnt ((mem_temporaries _ _ hn _).mpr ⟨_, hx', ht⟩)
      cases p with
      | atomicRename =>
        simp [isTemporary, validTmp, isDir, isLink] at hnt'
        simp [isFinalized, validFinal, isDir, hnt']
      | commitFile =>
        simp [isTemporary, validTmp, isDir, isLink] at hnt'
        simp [isFinalized, validFinal, isDir, hnt']
  refine ⟨f, rfl, hv, ?_⟩
  have := C22_only_complete_steps p ord ho _ hreg m f hv
  rwa [hsv] at this

/-! A concrete history: step 1 is saved, the save of step 2 crashes, the program restarts, saves step 2
again and then deletes step 1. -/

def hSave (n : Name) (d : Nat) : SaveReq :=
  ⟨n, [.tear "a".toList, .write "a".toList d], 5, 6, false⟩

def demoHistory : List Op :=
  [.save (hSave "1".toList 1) none, .save (hSave "2".toList 2) (some 3), .restart none,
   .save (hSave "2".toList 2) none, .delete "1".toList]

/-- Non-vacuity of C22. -/
example : Regular demoHistory ∧
    runOps .atomicRename id [] demoHistory = [("2".toList, .dir (contents (hSave "2".toList 2)))] ∧
    (runOp .atomicRename id (runOps .atomicRename id [] (demoHistory.take 3)) (.save (hSave "2".toList 2) none)).2 = true := by
  refine ⟨?_, by decide, by decide⟩
  have : saves demoHistory = [hSave "1".toList 1, hSave "2".toList 2, hSave "2".toList 2] := by decide
  unfold Regular
  rw [this]
  simp only [← hasTmp_iff]
  decide

end Verif.Store
