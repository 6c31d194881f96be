import Verif.Manager.Model
import Verif.Policies.Lemmas

/-! # Helper lemmas about the manager model -/

namespace Verif.Manager

open Verif.Policies (Ckpt)
open scoped List

theorem mem_steps {l : List Ckpt} {x : Int} : x ∈ steps l ↔ ∃ c ∈ l, c.step = x := by
  simp [steps]

theorem steps_append (a b : List Ckpt) : steps (a ++ b) = steps a ++ steps b := by simp [steps]

theorem steps_deleteStep (l : List Ckpt) (s : Int) :
    steps (deleteStep l s) = (steps l).filter (fun x => !(x == s)) := by
  simp [steps, deleteStep, List.filter_map, Function.comp_def]

theorem steps_deleteSteps (l : List Ckpt) (rm : List Int) :
    steps (deleteSteps l rm) = (steps l).filter (fun x => !rm.contains x) := by
  simp [steps, deleteSteps, List.filter_map, Function.comp_def]

theorem mem_steps_deleteStep {l : List Ckpt} {s x : Int} :
    x ∈ steps (deleteStep l s) ↔ x ∈ steps l ∧ x ≠ s := by
  simp [steps_deleteStep]

theorem mem_steps_deleteSteps {l : List Ckpt} {rm : List Int} {x : Int} :
    x ∈ steps (deleteSteps l rm) ↔ x ∈ steps l ∧ x ∉ rm := by
  simp [steps_deleteSteps]

theorem mem_deleteStep {l : List Ckpt} {s : Int} {c : Ckpt} :
    c ∈ deleteStep l s ↔ c ∈ l ∧ c.step ≠ s := by
  simp [deleteStep]

theorem mem_deleteSteps {l : List Ckpt} {rm : List Int} {c : Ckpt} :
    c ∈ deleteSteps l rm ↔ c ∈ l ∧ c.step ∉ rm := by
  simp [deleteSteps]

/-- Disk after a complete garbage collection. -/
theorem gcDisk_none (disk : List Ckpt) (rm : List Int) :
    gcDisk disk rm none = (deleteSteps disk rm, false) := by
  induction rm generalizing disk with
  | nil =>
    simp only [gcDisk, deleteSteps, Prod.mk.injEq, and_true]
    exact (List.filter_eq_self.mpr (by simp)).symm
  | cons r rs ih =>
    simp only [gcDisk, ih, Prod.mk.injEq, and_true]
    simp only [deleteSteps, deleteStep, List.filter_filter]
    congr 1; funext c
    rw [Bool.eq_iff_iff]
    simp
    exact and_comm

theorem gcDisk_sublist (disk : List Ckpt) (rm : List Int) (k : Option Nat) :
    (gcDisk disk rm k).1 <+ disk := by
  induction rm generalizing disk k with
  | nil => simp [gcDisk]
  | cons r rs ih =>
    match k with
    | none => simp only [gcDisk]; exact (ih _ _).trans List.filter_sublist
    | some 0 => simp [gcDisk]
    | some (k+1) => simp only [gcDisk]; exact (ih _ _).trans List.filter_sublist

theorem gcDisk_keeps (disk : List Ckpt) (rm : List Int) (k : Option Nat) (c : Ckpt) (hc : c ∈ disk)
    (hr : c.step ∉ rm) : c ∈ (gcDisk disk rm k).1 := by
  induction rm generalizing disk k with
  | nil => simpa [gcDisk]
  | cons r rs ih =>
    have h1 : c.step ≠ r := fun h => hr (by simp [h])
    have h2 : c.step ∉ rs := fun h => hr (by simp [h])
    have h3 : c ∈ deleteStep disk r := mem_deleteStep.mpr ⟨hc, h1⟩
    match k with
    | none => simp only [gcDisk]; exact ih _ _ h3 h2
    | some 0 => simpa [gcDisk]
    | some (k+1) => simp only [gcDisk]; exact ih _ _ h3 h2

theorem steps_sublist {a b : List Ckpt} (h : a <+ b) : steps a <+ steps b := h.map _

theorem steps_loadInfos_perm (disk : List Ckpt) : steps (loadInfos disk) ~ steps disk :=
  (List.mergeSort_perm _ _).map _

theorem loadInfos_perm (disk : List Ckpt) : loadInfos disk ~ disk := List.mergeSort_perm _ _

theorem loadInfos_le (disk : List Ckpt) : (steps (loadInfos disk)).Pairwise (· ≤ ·) := by
  have h := List.pairwise_mergeSort (le := fun (a b : Ckpt) => decide (a.step ≤ b.step))
    (by intro a b c h1 h2; simp at *; omega) (by intro a b; simp; omega) disk
  have h' : (loadInfos disk).Pairwise (fun a b => a.step ≤ b.step) := h.imp (by simp)
  exact List.pairwise_map.mpr h'

theorem pairwise_lt_of_le_nodup {l : List Int} (h1 : l.Pairwise (· ≤ ·)) (h2 : l.Nodup) :
    l.Pairwise (· < ·) := by
  refine (h1.and h2).imp ?_
  intro a b ⟨h, h'⟩
  omega

theorem loadInfos_sorted (disk : List Ckpt) (h : (steps disk).Nodup) :
    (steps (loadInfos disk)).Pairwise (· < ·) :=
  pairwise_lt_of_le_nodup (loadInfos_le disk) ((steps_loadInfos_perm disk).nodup_iff.mpr h)

theorem mem_steps_loadInfos {disk : List Ckpt} {x : Int} :
    x ∈ steps (loadInfos disk) ↔ x ∈ steps disk := (steps_loadInfos_perm disk).mem_iff

/-- Two strictly increasing lists with the same elements are equal. -/
theorem eq_of_sorted {a b : List Int} (ha : a.Pairwise (· < ·)) (hb : b.Pairwise (· < ·))
    (h : ∀ x, x ∈ a ↔ x ∈ b) : a = b := by
  induction a generalizing b with
  | nil =>
    cases b with
    | nil => rfl
    | cons y b => exact absurd ((h y).mpr (by simp)) (by simp)
  | cons x a ih =>
    cases b with
    | nil => exact absurd ((h x).mp (by simp)) (by simp)
    | cons y b =>
      rw [List.pairwise_cons] at ha hb
      have hxy : x = y := by
        have h1 := (h x).mp (by simp)
        have h2 := (h y).mpr (by simp)
        rcases List.mem_cons.mp h1 with e | h1
        · exact e
        · rcases List.mem_cons.mp h2 with e | h2
          · exact e.symm
          · have := ha.1 y h2; have := hb.1 x h1; omega
      subst hxy
      congr 1
      refine ih ha.2 hb.2 fun z => ?_
      have hz := h z
      simp only [List.mem_cons] at hz
      constructor
      · intro hza
        have := ha.1 z hza
        rcases hz.mp (.inr hza) with e | h'
        · omega
        · exact h'
      · intro hzb
        have := hb.1 z hzb
        rcases hz.mpr (.inr hzb) with e | h'
        · omega
        · exact h'

theorem latestStep_eq (infos : List Ckpt) : latestStep infos = (steps infos).getLast? := by
  simp [latestStep, steps, List.getLast?_map]

theorem le_latest_of_sorted {l : List Int} (h : l.Pairwise (· < ·)) {m x : Int}
    (hm : l.getLast? = some m) (hx : x ∈ l) : x ≤ m := by
  induction l generalizing x with
  | nil => simp at hx
  | cons a l ih =>
    rw [List.pairwise_cons] at h
    cases l with
    | nil => simp at hm hx; omega
    | cons b l =>
      rw [List.getLast?_cons_cons] at hm
      rcases List.mem_cons.mp hx with rfl | hx
      · have h1 := h.1 b (by simp)
        have h2 := ih h.2 hm (x := b) (by simp)
        omega
      · exact ih h.2 hm hx

theorem mem_oldSteps {infos : List Ckpt} {flags : List Bool} {x : Int} :
    x ∈ oldStepsToRemove infos flags ↔
      ∃ (i : Nat) (c : Ckpt), infos[i]? = some c ∧ flags[i]? = some false ∧ c.step = x := by
  simp only [oldStepsToRemove, List.mem_filterMap]
  constructor
  · rintro ⟨⟨c, b⟩, hm, hx⟩
    obtain ⟨i, hi⟩ := List.getElem?_of_mem hm
    rw [List.getElem?_zip_eq_some] at hi
    cases b with
    | true => simp at hx
    | false => simp at hx; exact ⟨i, c, hi.1, hi.2, hx⟩
  · rintro ⟨i, c, h1, h2, h3⟩
    refine ⟨(c, false), ?_, by simp [h3]⟩
    exact List.mem_of_getElem? (List.getElem?_zip_eq_some.mpr ⟨h1, h2⟩ : (infos.zip flags)[i]? = _)

theorem run_nil (cfg : Cfg) (st : St) : run cfg st [] = st := rfl

theorem run_cons (cfg : Cfg) (st : St) (e : Ev) (evs : List Ev) :
    run cfg st (e :: evs) = run cfg (exec cfg st e).1 evs := rfl

theorem run_append (cfg : Cfg) (st : St) (a b : List Ev) :
    run cfg st (a ++ b) = run cfg (run cfg st a) b := by simp [run]

/-- Induction principle: an invariant preserved by every allowed event holds after every history of
allowed events. -/
theorem run_inv (cfg : Cfg) (P : St → Prop) (A : Ev → Prop)
    (hstep : ∀ s e, A e → P s → P (exec cfg s e).1) (evs : List Ev) (hA : ∀ e ∈ evs, A e)
    (st : St) (h : P st) : P (run cfg st evs) := by
  induction evs generalizing st with
  | nil => exact h
  | cons e evs ih =>
    rw [run_cons]
    exact ih (fun e he => hA e (by simp [he])) _ (hstep st e (hA e (by simp)) h)

/-- What `save` can do, as a case principle. -/
theorem save_cases (cfg : Cfg) (st : St) (c : SaveCall) (P : St × Out → Prop)
    (hpol : P (st, .raised .policy))
    (hskip : P (st, .skipped))
    (hblock : P (st, .blocked))
    (hraise : busy st = false → (waitFinished st c.thread).2 = true →
      P ((waitFinished st c.thread).1, .raised .background))
    (hdo : busy st = false → (waitFinished st c.thread).2 = false →
      (c.force = true ∨ shouldSave cfg st c = .ok true) → P (doSave cfg st c)) :
    P (save cfg st c) := by
  unfold save
  have hw : (waitFinished st c.thread).2 = false → (waitFinished st c.thread).1 = st := by
    unfold waitFinished
    split
    · simp
    · split
      · split <;> simp
      · simp
  split
  · exact hpol
  · exact hskip
  · rename_i hs
    split
    · exact hblock
    · rename_i hb
      have hb : busy st = false := by simpa using hb
      simp only
      split
      · rename_i hr; exact hraise hb hr
      · rename_i hr
        have hr : (waitFinished st c.thread).2 = false := by simpa using hr
        rw [hw hr]
        refine hdo hb hr ?_
        cases hf : c.force with
        | true => exact .inl rfl
        | false => rw [hf] at hs; exact .inr (by simpa using hs)

/-- Well-formed storage: one directory per step, and a running commit publishes a new one. -/
structure WF (st : St) : Prop where
  nodup : (steps st.disk).Nodup
  fresh : ∀ k, st.commit = some k → k.info.step ∉ steps st.disk

theorem waitFinished_disk (st : St) (t : Nat) : (waitFinished st t).1.disk = st.disk ∧
    (waitFinished st t).1.commit = st.commit ∧ (waitFinished st t).1.asyncErr = st.asyncErr ∧
    (waitFinished st t).1.committed = st.committed ∧ (waitFinished st t).1.serial = st.serial ∧
    (waitFinished st t).1.inProgress = st.inProgress := by
  unfold waitFinished
  split
  · simp
  · split
    · split <;> simp
    · simp

theorem nodup_append_step {l : List Int} {s : Int} (h : l.Nodup) (hs : s ∉ l) : (l ++ [s]).Nodup := by
  rw [List.nodup_append]
  refine ⟨h, by simp, ?_⟩
  intro a ha b hb
  simp at hb; subst hb
  intro e; exact hs (e ▸ ha)

theorem busy_false {st : St} (h : busy st = false) : finRunning st = false ∧ st.commit = none := by
  unfold busy at h
  rw [Bool.or_eq_false_iff] at h
  refine ⟨h.1, ?_⟩
  cases hc : st.commit with
  | none => rfl
  | some k => rw [hc] at h; simp at h

theorem afterStore_disk (cfg : Cfg) (st : St) (c : SaveCall) :
    (afterStore cfg st c).1.disk <+ st.disk ∧ (afterStore cfg st c).1.commit = st.commit ∧
    (afterStore cfg st c).1.asyncErr = st.asyncErr ∧
    (afterStore cfg st c).1.committed = st.committed ∧
    (afterStore cfg st c).1.serial = st.serial := by
  unfold afterStore
  simp only
  split
  · simp
  · split
    · simp
    · simp [gcDisk_sublist]

theorem WF.of_sublist {st st' : St} (h : WF st) (hd : st'.disk <+ st.disk)
    (hc : st'.commit = st.commit) : WF st' :=
  ⟨(h.nodup.sublist (steps_sublist hd)), fun k hk hm =>
    h.fresh k (hc ▸ hk) ((steps_sublist hd).subset hm)⟩

theorem doSave_WF (cfg : Cfg) (st : St) (c : SaveCall) (h : WF st) (hb : busy st = false) :
    WF (doSave cfg st c).1 := by
  have hcm := (busy_false hb).2
  have hsub : deleteStep st.disk c.step <+ st.disk := List.filter_sublist
  have hnd : (steps (deleteStep st.disk c.step)).Nodup := h.nodup.sublist (steps_sublist hsub)
  have hfr : c.step ∉ steps (deleteStep st.disk c.step) := by simp [mem_steps_deleteStep]
  unfold doSave
  simp only
  split
  · exact ⟨h.nodup, h.fresh⟩
  · split
    · exact ⟨h.nodup, h.fresh⟩
    · split
      · exact WF.of_sublist h hsub rfl
      · split
        · have := afterStore_disk cfg { st with inProgress := true, disk := deleteStep st.disk c.step, commit := some ⟨⟨c.step, c.commitTime, diskMetric cfg c.metric⟩, false, st.serial + 1⟩, serial := st.serial + 1 } c
          refine WF.of_sublist ?_ this.1 this.2.1
          refine ⟨hnd, ?_⟩
          intro k hk; simp at hk; subst hk; exact hfr
        · have := afterStore_disk cfg { st with inProgress := true, disk := deleteStep st.disk c.step ++ [⟨c.step, c.commitTime, diskMetric cfg c.metric⟩], serial := st.serial + 1, committed := (st.serial + 1) :: st.committed } c
          refine WF.of_sublist ?_ this.1 this.2.1
          refine ⟨?_, ?_⟩
          · simp only [steps_append]; exact nodup_append_step hnd hfr
          · intro k hk; simp [hcm] at hk

theorem exec_WF (cfg : Cfg) (st : St) (e : Ev) (h : WF st) : WF (exec cfg st e).1 := by
  cases e with
  | save c =>
    simp only [exec]
    refine save_cases cfg st c (fun r => WF r.1) h h h ?_ ?_
    · intro hb _
      have hw := waitFinished_disk st c.thread
      exact WF.of_sublist h (by rw [hw.1]; exact List.Sublist.refl _) hw.2.1
    · intro hb _ _; exact doSave_WF cfg st c h hb
  | delete s ok =>
    simp only [exec, delete]
    split
    · exact h
    · split
      · exact h
      · split
        · exact h
        · refine ⟨h.nodup.sublist (steps_sublist List.filter_sublist), ?_⟩
          intro k hk
          simp only [Option.map_eq_some_iff] at hk
          obtain ⟨k', hk', rfl⟩ := hk
          have := h.fresh k' hk'
          intro hm
          simp only [mem_steps_deleteStep] at hm
          refine this ?_
          split at hm <;> exact hm.1
  | reload => exact ⟨h.nodup, h.fresh⟩
  | wait t =>
    simp only [exec]
    split
    · exact h
    · have hw := waitFinished_disk st t
      exact WF.of_sublist h (by rw [hw.1]; exact List.Sublist.refl _) hw.2.1
  | pollError => simp only [exec]; split <;> exact ⟨h.nodup, h.fresh⟩
  | commitDone ok t =>
    simp only [exec, commitDone]
    split
    · exact h
    · rename_i k hk
      split
      · refine ⟨?_, by simp⟩
        simp only [steps_append]
        exact nodup_append_step h.nodup (h.fresh k hk)
      · exact ⟨h.nodup, by simp⟩
  | finalize d =>
    simp only [exec, finalize]
    split
    · exact h
    · split
      · exact h
      · split
        · exact ⟨h.nodup, h.fresh⟩
        · exact WF.of_sublist h (gcDisk_sublist _ _ _) rfl

theorem init_WF (disk : List Ckpt) (h : (steps disk).Nodup) : WF (init disk) := ⟨h, by simp [init]⟩

theorem run_WF (cfg : Cfg) (disk : List Ckpt) (h : (steps disk).Nodup) (evs : List Ev) :
    WF (run cfg (init disk) evs) :=
  run_inv cfg WF (fun _ => True) (fun s e _ hs => exec_WF cfg s e hs) evs (by simp) _ (init_WF disk h)

end Verif.Manager
