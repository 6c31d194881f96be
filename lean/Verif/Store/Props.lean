import Verif.Store.Lemmas
import Verif.NameFormat.Props

/-!
# Properties of the checkpoint store: crash safety, clean-up, deletion (C17–C22, C24)

Specification vocabulary:

* `contents r` — the files a save is meant to produce: the result of executing all its file operations
  on an empty directory;
* `Visible o fs n f` — a reader with options `o` regards entry `n` as a finished checkpoint, and its files
  are `f`;
* `SameData f g` — `f` and `g` agree on every file other than the commit marker.
-/

namespace Verif.Store

open Verif.NameFormat (Name tmpSuffix)
open Verif.Assoc

/-- The files a save is meant to produce. -/
def contents (r : SaveReq) : Files := applyOps [] (saveOps r)

/-- Entry `n` is a finished checkpoint with files `f`, to a reader with options `o`. -/
def Visible (o : Opts) (fs : FS) (n : Name) (f : Files) : Prop :=
  get fs n = some (.dir f) ∧ isFinalized o n (.dir f) = true

/-- Equal, except possibly for the commit marker. -/
def SameData (f g : Files) : Prop := ∀ x, x ≠ commitFile → get f x = get g x

/-- Readers of checkpoints saved with atomic renames. -/
abbrev renameOpts : Opts := ⟨.atomicRename, false⟩

/-- Readers of checkpoints saved with commit files. -/
abbrev commitOpts : Opts := ⟨.commitFile, false⟩

/-- With atomic renames an entry is a finished checkpoint iff it is a directory and its name does not
contain the temporary suffix. -/
theorem visible_rename (fs : FS) (n : Name) (f : Files) :
    Visible renameOpts fs n f ↔ get fs n = some (.dir f) ∧ ¬ tmpSuffix <:+: n := by
  unfold Visible
  rw [← hasTmp_iff]
  simp [isFinalized, validFinal, isDir]

/-- With commit files an entry is a finished checkpoint iff it is a directory holding the marker. -/
theorem visible_commit (fs : FS) (n : Name) (f : Files) :
    Visible commitOpts fs n f ↔ get fs n = some (.dir f) ∧ get f commitFile ≠ none := by
  unfold Visible
  cases h : get f commitFile <;> simp [isFinalized, validFinal, isDir, hasCommitFile, h]

/-! ### Writing -/

/-- Creation of the temporary directory and all file operations. -/
def bodyActs (p : Protocol) (ord : List Name → List Name) (fs : FS) (r : SaveReq) : List Act :=
  createActs ord fs (tmpName p r.name) ++ (saveOps r).map (Act.op (tmpName p r.name))

theorem writeActs_eq (p : Protocol) (ord : List Name → List Name) (fs : FS) (r : SaveReq) :
    writeActs p ord fs r = bodyActs p ord fs r ++ commitActs p r.name := rfl

theorem create_touched (ord : List Name → List Name) (fs : FS) (t : Name) (a : Act) (ha : a ∈ createActs ord fs t) :
    touched a = [t] := by
  unfold createActs at ha
  rcases List.mem_append.mp ha with ha | ha
  · split at ha
    · exact rmtree_touched ord fs t a ha
    · cases ha
  · simp at ha; subst ha; rfl

theorem body_touched (p : Protocol) (ord : List Name → List Name) (fs : FS) (r : SaveReq) (a : Act)
    (ha : a ∈ bodyActs p ord fs r) : touched a = [tmpName p r.name] := by
  rcases List.mem_append.mp ha with ha | ha
  · exact create_touched _ _ _ _ ha
  · obtain ⟨o, _, rfl⟩ := List.mem_map.mp ha; rfl

theorem create_ok (ord : List Name → List Name) (fs fs0 : FS) (t : Name)
    (h : (run fs (createActs ord fs0 t)).2 = true) :
    get (run fs (createActs ord fs0 t)).1 t = some (.dir []) := by
  unfold createActs at h ⊢
  generalize (if exist fs0 t then rmtreeActs ord fs0 t else []) = pre at h ⊢
  rw [run_append] at h ⊢
  by_cases hp : (run fs pre).2 = true
  · rw [if_pos hp] at h ⊢
    cases hg : get (run fs pre).1 t with
    | none => simp [run, exec, hg]
    | some x => simp [run, exec, hg] at h
  · rw [if_neg hp] at h; exact absurd h hp

theorem body_ok (p : Protocol) (ord : List Name → List Name) (fs : FS) (r : SaveReq)
    (h : (run fs (bodyActs p ord fs r)).2 = true) :
    get (run fs (bodyActs p ord fs r)).1 (tmpName p r.name) = some (.dir (contents r)) := by
  unfold bodyActs at h ⊢
  rw [run_append] at h ⊢
  split at h
  · rename_i hp
    rw [if_pos hp]
    exact (run_ops _ _ _ _ (create_ok ord fs fs _ hp)).2
  · rename_i hp; exact absurd h hp

/-- The body never fails when the temporary path is free or an old temporary directory. -/
theorem body_completes (p : Protocol) (ord : List Name → List Name) (ho : ∀ l, (ord l).Perm l) (fs : FS) (r : SaveReq)
    (h : get fs (tmpName p r.name) = none ∨ ∃ f, get fs (tmpName p r.name) = some (.dir f)) :
    (run fs (bodyActs p ord fs r)).2 = true := by
  have hc : (run fs (createActs ord fs (tmpName p r.name))).2 = true := by
    unfold createActs
    rcases h with h | ⟨f, h⟩
    · simp [exist, h, run, exec]
    · simp only [exist, h, Option.isSome_some, if_true]
      obtain ⟨h1, h2⟩ := run_rmtree ord ho fs fs _ f h h
      rw [run_append, if_pos h1]
      simp [run, exec, h2]
  unfold bodyActs
  rw [run_append, if_pos hc]
  exact (run_ops _ _ _ _ (create_ok ord fs fs _ hc)).1

/-- State of an atomic-rename save into a free name, stopped anywhere. -/
theorem write_rename (ord : List Name → List Name) (fs : FS) (r : SaveReq) (hn : get fs r.name = none)
    (ht : hasTmp r.name = false) (k : Nat) :
    (∀ m, m ≠ r.name → m ≠ tmpName .atomicRename r.name →
      get (run fs ((writeActs .atomicRename ord fs r).take k)).1 m = get fs m) ∧
    (get (run fs ((writeActs .atomicRename ord fs r).take k)).1 r.name = none ∨
     get (run fs ((writeActs .atomicRename ord fs r).take k)).1 r.name = some (.dir (contents r))) := by
  have hne : r.name ≠ tmpName .atomicRename r.name := fun h => tmpName_ne r.name ht h.symm
  rw [writeActs_eq]
  have hbody : ∀ j, ∀ m, m ≠ tmpName .atomicRename r.name →
      get (run fs ((bodyActs .atomicRename ord fs r).take j)).1 m = get fs m := by
    intro j m hm
    refine run_frame _ _ _ fun a ha => ?_
    rw [body_touched _ _ _ _ _ (List.mem_of_mem_take ha)]
    simpa using hm
  rcases Nat.lt_or_ge (bodyActs .atomicRename ord fs r).length k with hk | hk
  · rw [List.take_of_length_le (by simp [commitActs]; omega)]
    have hfull := hbody (bodyActs .atomicRename ord fs r).length
    rw [List.take_length] at hfull
    rw [run_append]
    split
    · rename_i hok
      have hget := body_ok _ _ _ _ hok
      simp only [commitActs, run, exec, hget]
      rw [hfull r.name hne, hn]
      simp only
      refine ⟨fun m h1 h2 => ?_, .inr (get_put_self _ _ _)⟩
      rw [get_put_ne _ _ h1, get_del_ne _ h2, hfull m h2]
    · exact ⟨fun m _ h2 => hfull m h2, .inl (by rw [hfull r.name hne, hn])⟩
  · rw [List.take_append_of_le_length hk]
    exact ⟨fun m _ h2 => hbody k m h2, .inl (by rw [hbody k r.name hne, hn])⟩

theorem saveActs_free (p : Protocol) (ord : List Name → List Name) (fs : FS) (r : SaveReq) (hn : get fs r.name = none) :
    saveActs p ord fs r = some (writeActs p ord fs r) := by
  unfold saveActs exist
  simp [hn]

/-- **C18** (atomic rename): a save into a free name that stops after any number `k` of storage actions
leaves every finished checkpoint exactly as it was, and makes at most one new checkpoint visible, the
one being saved, with exactly the intended contents. -/
theorem C18_crash_safe (ord : List Name → List Name) (fs : FS) (r : SaveReq) (hn : get fs r.name = none)
    (ht : ¬ tmpSuffix <:+: r.name) (acts : List Act) (ha : saveActs .atomicRename ord fs r = some acts) (k : Nat)
    (m : Name) (f : Files) :
    (Visible renameOpts fs m f → Visible renameOpts (run fs (acts.take k)).1 m f) ∧
    (Visible renameOpts (run fs (acts.take k)).1 m f →
      Visible renameOpts fs m f ∨ (m = r.name ∧ f = contents r)) := by
  have ht' : hasTmp r.name = false := by
    rw [← Bool.not_eq_true, hasTmp_iff]; exact ht
  rw [saveActs_free _ _ _ _ hn] at ha
  cases ha
  obtain ⟨h1, h2⟩ := write_rename ord fs r hn ht' k
  simp only [visible_rename]
  have hmt : ∀ m, ¬ tmpSuffix <:+: m → m ≠ tmpName .atomicRename r.name := by
    intro m hm he
    apply hm
    rw [← hasTmp_iff, he]
    exact hasTmp_append _
  constructor
  · rintro ⟨hg, hm⟩
    have hne : m ≠ r.name := by rintro rfl; rw [hn] at hg; cases hg
    exact ⟨by rw [h1 m hne (hmt m hm)]; exact hg, hm⟩
  · rintro ⟨hg, hm⟩
    by_cases hne : m = r.name
    · subst hne
      rcases h2 with h2 | h2
      · rw [h2] at hg; cases hg
      · rw [h2] at hg
        simp only [Option.some.injEq, Node.dir.injEq] at hg
        exact .inr ⟨rfl, hg.symm⟩
    · rw [h1 m hne (hmt m hm)] at hg
      exact .inl ⟨hg, hm⟩

/-- **C18** (atomic rename): a save that is not interrupted makes the checkpoint visible with the
intended contents, even over the left-overs of an earlier interrupted attempt. -/
theorem C18_completes (ord : List Name → List Name) (ho : ∀ l, (ord l).Perm l) (fs : FS) (r : SaveReq)
    (hn : get fs r.name = none) (ht : ¬ tmpSuffix <:+: r.name)
    (hleft : get fs (r.name ++ tmpSuffix) = none ∨ ∃ f, get fs (r.name ++ tmpSuffix) = some (.dir f))
    (acts : List Act) (ha : saveActs .atomicRename ord fs r = some acts) :
    (run fs acts).2 = true ∧ Visible renameOpts (run fs acts).1 r.name (contents r) := by
  have ht' : hasTmp r.name = false := by
    rw [← Bool.not_eq_true, hasTmp_iff]; exact ht
  have hne : r.name ≠ tmpName .atomicRename r.name := fun h => tmpName_ne r.name ht' h.symm
  rw [saveActs_free _ _ _ _ hn] at ha
  cases ha
  rw [writeActs_eq, run_append]
  have hok := body_completes .atomicRename ord ho fs r hleft
  rw [if_pos hok, visible_rename]
  have hget := body_ok _ _ _ _ hok
  have hfr : get (run fs (bodyActs .atomicRename ord fs r)).1 r.name = none := by
    rw [run_frame, hn]
    intro a ha
    rw [body_touched _ _ _ _ _ ha]
    simpa using hne
  simp only [commitActs, run, exec, hget, hfr]
  exact ⟨trivial, get_put_self _ _ _, ht⟩

/-! A concrete directory: a committed step `1`, the left-over of an interrupted save of step `2`, and
a new save of step `2`. -/

def demoFs : FS :=
  [("1".toList, .dir [("a".toList, .data 1), (commitFile, .data 0)]),
   ("2.orbax-checkpoint-tmp".toList, .dir [("a".toList, .torn)])]

def demoReq : SaveReq :=
  ⟨"2".toList, [.tear metadataFile, .write metadataFile 7, .tear "a".toList, .write "a".toList 2], 8, 0, false⟩

/-- Non-vacuity of C18: the hypotheses hold, and among the 14 crash points both outcomes occur. -/
example : get demoFs demoReq.name = none ∧ ¬ tmpSuffix <:+: demoReq.name ∧
    get demoFs (demoReq.name ++ tmpSuffix) = some (.dir [("a".toList, .torn)]) ∧
    Visible renameOpts demoFs "1".toList [("a".toList, .data 1), (commitFile, .data 0)] := by
  refine ⟨by decide, ?_, by decide, by decide, by decide⟩
  rw [← hasTmp_iff]; decide

example : (saveActs .atomicRename id demoFs demoReq).map (·.length) = some 12 := by decide

/-! ### Commit files -/

/-- State of a commit-file save into a free name, stopped anywhere: nothing, or a directory without the
marker, or a directory with the marker and all the data. -/
theorem write_commit (ord : List Name → List Name) (fs : FS) (r : SaveReq) (hn : get fs r.name = none)
    (hb : ∀ o ∈ r.body, o.target ≠ commitFile) (k : Nat) :
    (∀ m, m ≠ r.name → get (run fs ((writeActs .commitFile ord fs r).take k)).1 m = get fs m) ∧
    (get (run fs ((writeActs .commitFile ord fs r).take k)).1 r.name = none ∨
     (∃ f, get (run fs ((writeActs .commitFile ord fs r).take k)).1 r.name = some (.dir f) ∧
        (get f commitFile = none ∨ SameData f (contents r)))) := by
  have hw : writeActs .commitFile ord fs r = Act.mkdir r.name :: (saveOps r).map (Act.op r.name) := by
    simp [writeActs, createActs, commitActs, tmpName, exist, hn]
  rw [hw]
  constructor
  · intro m hm
    refine run_frame _ _ _ fun a ha => ?_
    have : touched a = [r.name] := by
      rcases List.mem_cons.mp (List.mem_of_mem_take ha) with rfl | ha
      · rfl
      · obtain ⟨o, _, rfl⟩ := List.mem_map.mp ha; rfl
    rw [this]; simpa using hm
  · cases k with
    | zero => left; simpa [run] using hn
    | succ j =>
      right
      rw [List.take_succ_cons]
      simp only [run, exec, hn]
      rw [← List.map_take]
      refine ⟨_, (run_ops _ _ [] _ (get_put_self _ _ _)).2, ?_⟩
      have hpre : ∀ o ∈ r.body ++ [FileOp.tear metadataFile, .write metadataFile r.commitMeta],
          o.target ≠ commitFile := by
        intro o ho
        rcases List.mem_append.mp ho with ho | ho
        · exact hb o ho
        · simp only [List.mem_cons, List.not_mem_nil, or_false] at ho
          have : metadataFile ≠ commitFile := by decide
          rcases ho with rfl | rfl <;> exact this
      generalize hB : r.body ++ [FileOp.tear metadataFile, .write metadataFile r.commitMeta] = B at hpre
      have hs : saveOps r = B ++ [.tear commitFile, .write commitFile r.commitText] := by
        rw [← hB]; rfl
      rcases Nat.lt_or_ge B.length j with hj | hj
      · right
        obtain ⟨i, rfl⟩ : ∃ i, j = B.length + i := ⟨j - B.length, by omega⟩
        unfold contents
        rw [hs, List.take_append, applyOps_append, applyOps_append]
        rw [List.take_of_length_le (by omega)]
        intro x hx
        have hc : ∀ o ∈ [FileOp.tear commitFile, .write commitFile r.commitText], o.target ≠ x := by
          intro o ho
          simp only [List.mem_cons, List.not_mem_nil, or_false] at ho
          rcases ho with rfl | rfl <;> exact Ne.symm hx
        rw [applyOps_get_other (applyOps [] B) _ x fun o ho => hc o (List.mem_of_mem_take ho),
          applyOps_get_other (applyOps [] B) _ x hc]
      · left
        rw [hs, List.take_append_of_le_length hj, applyOps_get_other]
        · rfl
        · intro o ho
          exact hpre o (List.mem_of_mem_take ho)

/-- **C19** (commit file): a save into a free name that stops after any number of storage actions leaves
every finished checkpoint as it was, and makes at most one new checkpoint visible, the one being saved,
with all its data. -/
theorem C19_crash_safe (ord : List Name → List Name) (fs : FS) (r : SaveReq) (hn : get fs r.name = none)
    (hb : ∀ o ∈ r.body, o.target ≠ commitFile) (acts : List Act)
    (ha : saveActs .commitFile ord fs r = some acts) (k : Nat) (m : Name) (f : Files) :
    (Visible commitOpts fs m f → Visible commitOpts (run fs (acts.take k)).1 m f) ∧
    (Visible commitOpts (run fs (acts.take k)).1 m f →
      Visible commitOpts fs m f ∨ (m = r.name ∧ SameData f (contents r))) := by
  rw [saveActs_free _ _ _ _ hn] at ha
  cases ha
  obtain ⟨h1, h2⟩ := write_commit ord fs r hn hb k
  simp only [visible_commit]
  constructor
  · rintro ⟨hg, hm⟩
    have hne : m ≠ r.name := by rintro rfl; rw [hn] at hg; cases hg
    exact ⟨by rw [h1 m hne]; exact hg, hm⟩
  · rintro ⟨hg, hm⟩
    by_cases hne : m = r.name
    · subst hne
      rcases h2 with h2 | ⟨f', h2, h3⟩
      · rw [h2] at hg; cases hg
      · rw [h2] at hg
        simp only [Option.some.injEq, Node.dir.injEq] at hg
        subst hg
        rcases h3 with h3 | h3
        · exact absurd h3 hm
        · exact .inr ⟨rfl, h3⟩
    · rw [h1 m hne] at hg
      exact .inl ⟨hg, hm⟩

/-- **C19** (commit file): a save that is not interrupted makes the checkpoint visible with exactly the
intended contents. -/
theorem C19_completes (ord : List Name → List Name) (ho : ∀ l, (ord l).Perm l) (fs : FS) (r : SaveReq)
    (hn : get fs r.name = none) (acts : List Act) (ha : saveActs .commitFile ord fs r = some acts) :
    (run fs acts).2 = true ∧ Visible commitOpts (run fs acts).1 r.name (contents r) := by
  rw [saveActs_free _ _ _ _ hn] at ha
  cases ha
  have hok := body_completes .commitFile ord ho fs r (.inl hn)
  have hget := body_ok _ _ _ _ hok
  rw [writeActs_eq]
  simp only [commitActs, List.append_nil]
  refine ⟨hok, (visible_commit _ _ _).mpr ⟨hget, ?_⟩⟩
  unfold contents saveOps
  rw [applyOps_append]
  simp [applyOps, applyOp]

/-- Non-vacuity of C19. -/
example : get demoFs demoReq.name = none ∧ (∀ o ∈ demoReq.body, o.target ≠ commitFile) ∧
    (∃ acts, saveActs .commitFile id demoFs demoReq = some acts ∧ acts.length = 9) ∧
    Visible commitOpts demoFs "1".toList [("a".toList, .data 1), (commitFile, .data 0)] :=
  ⟨by decide, by decide, ⟨_, rfl, by decide⟩, by decide, by decide⟩

/-- Finding: with `allow_legacy_atomic_rename` every unfinished commit-file save that has created its
directory is taken for a finished checkpoint (and is no longer temporary, so it is never cleaned up). -/
theorem C19_allow_legacy_fails (ord : List Name → List Name) (fs : FS) (r : SaveReq) (hn : get fs r.name = none)
    (ht : ¬ tmpSuffix <:+: r.name) :
    ∃ acts, saveActs .commitFile ord fs r = some acts ∧
      Visible ⟨.commitFile, true⟩ (run fs (acts.take 1)).1 r.name [] ∧
      isTemporary ⟨.commitFile, true⟩ r.name (.dir []) = false := by
  have ht' : hasTmp r.name = false := by
    rw [← Bool.not_eq_true, hasTmp_iff]; exact ht
  refine ⟨_, saveActs_free _ _ _ _ hn, ⟨?_, ?_⟩, ?_⟩
  · simp [writeActs, createActs, tmpName, exist, hn, run, exec]
  · simp [isFinalized, validFinal, ht', isDir]
  · simp [isTemporary, validFinal, ht', isDir]

/-- Finding: discovery that assumes atomic renames (as the v1 training `Checkpointer` does, which builds
its default step name format without the atomicity options, experimental/v1/_src/training/checkpointer.py:
185-199) reports commit-file saves as soon as their directory exists. -/
theorem C19_discovery_protocol_mismatch_fails (ord : List Name → List Name) (fs : FS) (r : SaveReq)
    (hn : get fs r.name = none) (ht : ¬ tmpSuffix <:+: r.name) :
    ∃ acts, saveActs .commitFile ord fs r = some acts ∧
      Visible renameOpts (run fs (acts.take 1)).1 r.name [] := by
  refine ⟨_, saveActs_free _ _ _ _ hn, (visible_rename _ _ _).mpr ⟨?_, ht⟩⟩
  simp [writeActs, createActs, tmpName, exist, hn, run, exec]

end Verif.Store
