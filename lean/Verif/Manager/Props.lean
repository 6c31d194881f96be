import Verif.Manager.Lemmas
import Verif.Policies.Props

/-!
# Properties C09–C15: the checkpoint manager

Vocabulary: `steps st.infos` is what `all_steps()` returns, `latestStep st.infos` what
`latest_step()` returns, `steps st.disk` the committed step directories in storage; `run cfg s evs`
is the state after a history `evs`; `(exec cfg s e).2` the outcome of a call.
-/

namespace Verif.Manager.Props

open Verif.Manager
open Verif.Policies (Ckpt)
open Verif.SavePolicy (Ctx)
open scoped List

/-- A history in which no save is forced. -/
def NoForce (evs : List Ev) : Prop := ∀ c, Ev.save c ∈ evs → c.force = false

/-! ## C09 -/

/-- **C09** a non-forced save at a step not after `latest_step()` is refused, and changes nothing. -/
theorem C09_refused (cfg : Cfg) (st : St) (c : SaveCall) (hf : c.force = false) (l : Int)
    (hl : latestStep st.infos = some l) (hle : c.step ≤ l) :
    exec cfg st (.save c) = (st, .skipped) := by
  have h : shouldSave cfg st c = .ok false := by
    unfold shouldSave
    split
    · rfl
    · simp [hl, hle]
  simp [exec, save, hf, h]

theorem sorted_filter {l : List Int} (h : l.Pairwise (· < ·)) (p : Int → Bool) :
    (l.filter p).Pairwise (· < ·) := h.sublist List.filter_sublist

theorem infos_append_sorted {st : St} (h : (steps st.infos).Pairwise (· < ·)) {c : SaveCall}
    (hs : ∀ l, latestStep st.infos = some l → l < c.step) (i : Ckpt) (hi : i.step = c.step) :
    (steps (st.infos ++ [i])).Pairwise (· < ·) := by
  rw [steps_append, List.pairwise_append]
  refine ⟨h, by simp [steps], ?_⟩
  intro a ha b hb
  simp [steps] at hb
  rw [hb, hi]
  cases hl : latestStep st.infos with
  | none =>
    rw [latestStep_eq] at hl
    rw [List.getLast?_eq_none_iff] at hl
    rw [hl] at ha; simp at ha
  | some m =>
    have := hs m hl
    rw [latestStep_eq] at hl
    have := le_latest_of_sorted h hl ha
    omega

theorem afterStore_infos (cfg : Cfg) (st : St) (c : SaveCall) :
    (afterStore cfg st c).1.infos <+ st.infos ++ [⟨c.step, c.now, c.metric⟩] := by
  unfold afterStore
  simp only
  split
  · simp
  · split <;> exact List.filter_sublist

theorem doSave_infos (cfg : Cfg) (st : St) (c : SaveCall) :
    (doSave cfg st c).1.infos <+ st.infos ++ [⟨c.step, c.now, c.metric⟩] := by
  have h0 : st.infos <+ st.infos ++ [⟨c.step, c.now, c.metric⟩] := List.sublist_append_left _ _
  unfold doSave
  simp only
  split
  · exact h0
  · split
    · exact h0
    · split
      · exact h0
      · split
        · exact afterStore_infos _ _ _
        · exact afterStore_infos _ _ _

theorem shouldSave_true {cfg : Cfg} {st : St} {c : SaveCall} (h : shouldSave cfg st c = .ok true) :
    cfg.readOnly = false ∧ ∀ l, latestStep st.infos = some l → l < c.step := by
  unfold shouldSave at h
  split at h
  · simp at h
  · rename_i hr
    refine ⟨by simpa using hr, ?_⟩
    intro l hl
    simp only [hl] at h
    split at h
    · simp at h
    · rename_i hg; simp at hg; omega

theorem exec_sorted (cfg : Cfg) (st : St) (e : Ev) (he : ∀ c, e = .save c → c.force = false)
    (hw : WF st) (h : (steps st.infos).Pairwise (· < ·)) :
    (steps (exec cfg st e).1.infos).Pairwise (· < ·) := by
  have hwait : ∀ t, (steps (waitFinished st t).1.infos).Pairwise (· < ·) := by
    intro t
    unfold waitFinished
    split
    · exact h
    · split
      · split
        · exact h
        · simp only [steps_deleteStep]; exact sorted_filter h _
      · exact h
  cases e with
  | save c =>
    have hcf := he c rfl
    simp only [exec]
    refine save_cases cfg st c (fun r => (steps r.1.infos).Pairwise (· < ·)) h h h ?_ ?_
    · intro _ _; exact hwait _
    · intro _ _ hs
      rcases hs with hs | hs
      · rw [hcf] at hs; cases hs
      · exact (infos_append_sorted h (shouldSave_true hs).2 ⟨c.step, c.now, c.metric⟩ rfl).sublist
          (steps_sublist (doSave_infos cfg st c))
  | delete s ok =>
    simp only [exec, delete]
    split
    · exact h
    · split
      · exact h
      · split
        · exact h
        · simp only [steps_deleteStep]; exact sorted_filter h _
  | reload => exact loadInfos_sorted _ hw.nodup
  | wait t =>
    simp only [exec]
    split
    · exact h
    · exact hwait t
  | pollError => simp only [exec]; split <;> exact h
  | commitDone ok t =>
    simp only [exec, commitDone]
    split
    · exact h
    · split <;> exact h
  | finalize d =>
    simp only [exec, finalize]
    split
    · exact h
    · split
      · exact h
      · split <;> exact h

/-- **C09** in every history without forced saves — synchronous or asynchronous, with any failures,
deletions, reloads, waits and any policies — `all_steps()` is strictly increasing. -/
theorem C09_all_steps_increasing (cfg : Cfg) (disk : List Ckpt) (hd : (steps disk).Nodup)
    (evs : List Ev) (hf : NoForce evs) :
    (steps (run cfg (init disk) evs).infos).Pairwise (· < ·) := by
  have := run_inv cfg (fun s => WF s ∧ (steps s.infos).Pairwise (· < ·))
    (fun e => ∀ c, e = .save c → c.force = false)
    (fun s e he hs => ⟨exec_WF cfg s e hs.1, exec_sorted cfg s e he hs.1 hs.2⟩) evs
    (fun e he c hc => hf c (hc ▸ he)) (init disk) ⟨init_WF disk hd, loadInfos_sorted disk hd⟩
  exact this.2

/-- **C09** hence `latest_step()` is the maximum of `all_steps()`. -/
theorem C09_latest_is_max (cfg : Cfg) (disk : List Ckpt) (hd : (steps disk).Nodup)
    (evs : List Ev) (hf : NoForce evs) (l : Int)
    (hl : latestStep (run cfg (init disk) evs).infos = some l) :
    l ∈ steps (run cfg (init disk) evs).infos ∧
    ∀ x ∈ steps (run cfg (init disk) evs).infos, x ≤ l := by
  rw [latestStep_eq] at hl
  exact ⟨List.mem_of_getLast? hl, fun x hx =>
    le_latest_of_sorted (C09_all_steps_increasing cfg disk hd evs hf) hl hx⟩

theorem doSave_saved {cfg : Cfg} {st : St} {c : SaveCall} (h : (doSave cfg st c).2 = .saved) :
    c.step ∉ steps st.infos ∧
    ∃ flags, cfg.preserve (st.infos ++ [⟨c.step, c.now, c.metric⟩]) = .ok flags ∧
      (doSave cfg st c).1.infos = deleteSteps (st.infos ++ [⟨c.step, c.now, c.metric⟩])
        (oldStepsToRemove (st.infos ++ [⟨c.step, c.now, c.metric⟩]) flags) := by
  unfold doSave at h ⊢
  simp only at h ⊢
  split at h
  · simp at h
  · rename_i hc
    refine ⟨by simpa using hc, ?_⟩
    rw [if_neg hc]
    split at h
    · simp at h
    · rename_i hae
      rw [if_neg hae]
      split at h
      · simp at h
      · rename_i hok
        rw [if_neg hok]
        split at h
        · rename_i ha
          rw [if_pos ha]
          unfold afterStore at h ⊢
          simp only at h ⊢
          cases hp : cfg.preserve (st.infos ++ [⟨c.step, c.now, c.metric⟩]) with
          | error e => rw [hp] at h; simp at h
          | ok flags => exact ⟨flags, rfl, by simp [ha]⟩
        · rename_i ha
          rw [if_neg ha]
          unfold afterStore at h ⊢
          simp only at h ⊢
          cases hp : cfg.preserve (st.infos ++ [⟨c.step, c.now, c.metric⟩]) with
          | error e => rw [hp] at h; simp at h
          | ok flags => exact ⟨flags, rfl, by simp [ha]⟩

/-- The policy, asked about a list of checkpoints, keeps the last one. -/
def KeepsNewest (preserve : List Ckpt → Except Unit (List Bool)) : Prop :=
  ∀ cs c flags, preserve (cs ++ [c]) = .ok flags → flags[cs.length]? = some true

/-- **C09** an accepted save makes its step the latest one, for every preservation policy that keeps
the newest checkpoint (any state in which the cached steps are distinct, forced or not). -/
theorem C09_accepted_is_latest (cfg : Cfg) (st : St) (c : SaveCall)
    (hp : KeepsNewest cfg.preserve)
    (h : (exec cfg st (.save c)).2 = .saved) :
    latestStep (exec cfg st (.save c)).1.infos = some c.step := by
  simp only [exec] at h ⊢
  revert h
  refine save_cases cfg st c (fun r => r.2 = .saved → latestStep r.1.infos = some c.step)
    (by simp) (by simp) (by simp) (by simp) ?_
  intro _ _ _ h
  obtain ⟨hnew, flags, hflags, hinf⟩ := doSave_saved h
  have hk := hp _ _ _ hflags
  rw [hinf, latestStep_eq, steps_deleteSteps, steps_append, List.filter_append]
  have hrm : c.step ∉ oldStepsToRemove (st.infos ++ [⟨c.step, c.now, c.metric⟩]) flags := by
    rw [mem_oldSteps]
    rintro ⟨i, x, hx, hfl, hxs⟩
    by_cases hi : i < st.infos.length
    · rw [List.getElem?_append_left hi] at hx
      exact hnew (mem_steps.mpr ⟨x, List.mem_of_getElem? hx, hxs⟩)
    · have : i = st.infos.length := by
        have := (List.getElem?_eq_some_iff.mp hx).1
        simp at this; omega
      rw [this, hk] at hfl; simp at hfl
  simp [steps, hrm]

/-- `LatestN(n)` with `n ≥ 1` (and unlimited `LatestN`) keeps the newest. -/
theorem latestN_keepsNewest (n : Option Int) (hn : ∀ k, n = some k → 1 ≤ k) :
    KeepsNewest (fun cs => .ok (Verif.Policies.latestN n cs)) := by
  intro cs c flags h
  simp only [Except.ok.injEq] at h
  subst h
  have hlt : cs.length < (cs ++ [c]).length := by simp
  cases n with
  | none => exact (Verif.Policies.Props.C01_latestN_none (cs ++ [c])).2 cs.length hlt
  | some k =>
    have hk := hn k rfl
    refine ((Verif.Policies.Props.C01_latestN k (by omega) (cs ++ [c])).2 cs.length hlt).mpr ?_
    simp; omega

/-- A configuration used in examples and counterexamples: synchronous or asynchronous, save always,
keep the latest `n`. -/
def demoCfg (isAsync : Bool) (n : Option Int) : Cfg :=
  { readOnly := false, isAsync := isAsync, checkInProgress := true, trackBest := false,
    bestModeMin := false, preventWriteMetrics := false, savePolicy := fun _ _ _ => .ok true,
    preserve := fun cs => .ok (Verif.Policies.latestN n cs) }

/-- A plain successful call. -/
def call (step : Int) (force : Bool := false) : SaveCall :=
  { thread := 0, step := step, metric := none, force := force, now := step, preempted := false,
    overlap := false, storageOk := true, commitTime := step, deleteFailsAt := none }

theorem init_nil : init [] = ⟨[], [], false, none, false, none, 0, []⟩ := by
  simp [init, loadInfos]

/-- Non-vacuity: three saves with `max_to_keep=2`, a refused one, then a delete. -/
example :
    let s := run (demoCfg false (some 2)) (init [])
      [.save (call 1), .save (call 4), .save (call 3), .save (call 9), .delete 9 true]
    steps s.infos = [4] ∧ steps s.disk = [4] ∧ NoForce [Ev.save (call 1), .save (call 3)] := by
  rw [init_nil]
  refine ⟨by decide, by decide, ?_⟩
  intro c hc; simp at hc; rcases hc with rfl | rfl <;> rfl

/-- Finding (C09): the restriction to non-forced saves is needed. `save(5)`, then
`save(3, force=True)`: `latest_step()` is 3 although step 5 is committed and listed. -/
theorem C09_forced_save_fails :
    let s := run (demoCfg false none) (init []) [.save (call 5), .save (call 3 true)]
    steps s.infos = [5, 3] ∧ latestStep s.infos = some 3 := by
  rw [init_nil]; decide

/-- Finding (C09): the restriction to policies that keep the newest is needed. With `max_to_keep=0`
`save(5)` returns `True` and afterwards there is no checkpoint at all. -/
theorem C09_policy_drops_newest_fails :
    let r := exec (demoCfg false (some 0)) (init []) (.save (call 5))
    r.2 = .saved ∧ latestStep r.1.infos = none ∧ r.1.disk = [] := by
  rw [init_nil]; decide

/-! ## C10 -/

/-- A synchronous manager never has background activity. -/
structure Quiet (st : St) : Prop where
  commit : st.commit = none
  err : st.asyncErr = false
  fin : st.fin = none

theorem waitFinished_quiet {st : St} (h : Quiet st) (t : Nat) : waitFinished st t = (st, false) := by
  unfold waitFinished; rw [h.fin]

theorem afterStore_quiet (cfg : Cfg) (hs : cfg.isAsync = false) (st : St) (c : SaveCall)
    (h : Quiet st) : Quiet (afterStore cfg st c).1 := by
  unfold afterStore
  simp only
  split
  · exact ⟨h.commit, h.err, h.fin⟩
  · rw [if_neg (by simp [hs])]; exact ⟨h.commit, h.err, h.fin⟩

theorem doSave_quiet (cfg : Cfg) (hs : cfg.isAsync = false) (st : St) (c : SaveCall)
    (h : Quiet st) : Quiet (doSave cfg st c).1 := by
  unfold doSave
  simp only
  split
  · exact ⟨h.commit, h.err, h.fin⟩
  · split
    · exact ⟨h.commit, rfl, h.fin⟩
    · split
      · exact ⟨h.commit, h.err, h.fin⟩
      · rw [if_neg (by simp [hs])]
        exact afterStore_quiet cfg hs _ c ⟨h.commit, h.err, h.fin⟩

theorem exec_quiet (cfg : Cfg) (hs : cfg.isAsync = false) (st : St) (e : Ev) (h : Quiet st) :
    Quiet (exec cfg st e).1 := by
  cases e with
  | save c =>
    refine save_cases cfg st c (fun r => Quiet r.1) h h h ?_ ?_
    · intro _ hr; rw [waitFinished_quiet h] at hr; simp at hr
    · intro _ _ _; exact doSave_quiet cfg hs st c h
  | delete s ok =>
    simp only [exec, delete]
    split
    · exact h
    · split
      · exact h
      · split
        · exact h
        · exact ⟨by simp [h.commit], h.err, h.fin⟩
  | reload => exact ⟨h.commit, h.err, h.fin⟩
  | wait t =>
    simp only [exec, waitFinished_quiet h]
    split <;> exact h
  | pollError => simp only [exec, h.err]; exact h
  | commitDone ok t => simp only [exec, commitDone, h.commit]; exact h
  | finalize d => simp only [exec, finalize, h.fin]; exact h

/-- No deletion performed by garbage collection fails. -/
def DeletionsSucceed (e : Ev) : Prop := ∀ c, e = .save c → c.deleteFailsAt = none

/-- The cached steps are exactly the committed ones. -/
def Agree (st : St) : Prop := ∀ x, x ∈ steps st.infos ↔ x ∈ steps st.disk

theorem afterStore_agree (cfg : Cfg) (hs : cfg.isAsync = false) (st : St) (c : SaveCall)
    (hd : c.deleteFailsAt = none)
    (h : ∀ x, (x ∈ steps st.infos ∨ x = c.step) ↔ x ∈ steps st.disk) :
    Agree (afterStore cfg st c).1 := by
  unfold afterStore
  simp only
  split
  · intro x; simp only [steps_append, List.mem_append]
    rw [← h x]; simp [steps]
  · rw [if_neg (by simp [hs])]
    intro x
    simp only [hd, gcDisk_none, mem_steps_deleteSteps, steps_append, List.mem_append]
    rw [← h x]; simp [steps]

theorem doSave_agree (cfg : Cfg) (hs : cfg.isAsync = false) (st : St) (c : SaveCall)
    (hd : c.deleteFailsAt = none) (h : Agree st) : Agree (doSave cfg st c).1 := by
  unfold doSave
  simp only
  split
  · exact h
  · rename_i hc
    have hc : c.step ∉ steps st.infos := by simpa using hc
    have hc' : c.step ∉ steps st.disk := fun hm => hc ((h _).mpr hm)
    have key : ∀ x, x ∈ steps st.infos ↔ x ∈ steps (deleteStep st.disk c.step) := by
      intro x; rw [mem_steps_deleteStep, h x]
      constructor
      · intro hx; exact ⟨hx, fun e => hc' (e ▸ hx)⟩
      · exact fun hx => hx.1
    split
    · exact h
    · split
      · exact key
      · rw [if_neg (by simp [hs])]
        refine afterStore_agree cfg hs _ c hd ?_
        intro x
        simp only [steps_append, List.mem_append]
        rw [key x]; simp [steps]

theorem exec_agree (cfg : Cfg) (hs : cfg.isAsync = false) (st : St) (e : Ev) (hq : Quiet st)
    (hd : DeletionsSucceed e) (h : Agree st) : Agree (exec cfg st e).1 := by
  cases e with
  | save c =>
    refine save_cases cfg st c (fun r => Agree r.1) h h h ?_ ?_
    · intro _ hr; rw [waitFinished_quiet hq] at hr; simp at hr
    · intro _ _ _; exact doSave_agree cfg hs st c (hd c rfl) h
  | delete s ok =>
    simp only [exec, delete]
    split
    · exact h
    · split
      · exact h
      · split
        · exact h
        · intro x; simp only [mem_steps_deleteStep]; rw [h x]
  | reload => intro x; exact mem_steps_loadInfos
  | wait t =>
    simp only [exec, waitFinished_quiet hq]
    split <;> exact h
  | pollError => simp only [exec, hq.err]; exact h
  | commitDone ok t => simp only [exec, commitDone, hq.commit]; exact h
  | finalize d => simp only [exec, finalize, hq.fin]; exact h

theorem run_quiet_agree (cfg : Cfg) (hs : cfg.isAsync = false) (disk : List Ckpt) (evs : List Ev)
    (hd : ∀ e ∈ evs, DeletionsSucceed e) :
    Quiet (run cfg (init disk) evs) ∧ Agree (run cfg (init disk) evs) := by
  refine run_inv cfg (fun s => Quiet s ∧ Agree s) DeletionsSucceed
    (fun s e he h => ⟨exec_quiet cfg hs s e h.1, exec_agree cfg hs s e h.1 he h.2⟩) evs hd _
    ⟨⟨rfl, rfl, rfl⟩, fun x => mem_steps_loadInfos⟩

/-- **C10** a synchronous manager that is the only writer: after every history of calls (forced or
not; `Checkpointer.save`, the policies and explicit `delete` may raise; garbage collection does not)
`all_steps()` lists exactly the committed steps. -/
theorem C10_view_equals_storage (cfg : Cfg) (hs : cfg.isAsync = false) (disk : List Ckpt)
    (evs : List Ev) (hd : ∀ e ∈ evs, DeletionsSucceed e) (x : Int) :
    x ∈ steps (run cfg (init disk) evs).infos ↔ x ∈ steps (run cfg (init disk) evs).disk :=
  (run_quiet_agree cfg hs disk evs hd).2 x

/-- **C10** without forced saves it is moreover the list a fresh manager would load. -/
theorem C10_view_is_what_reload_gives (cfg : Cfg) (hs : cfg.isAsync = false) (disk : List Ckpt)
    (hn : (steps disk).Nodup) (evs : List Ev) (hd : ∀ e ∈ evs, DeletionsSucceed e)
    (hf : NoForce evs) :
    steps (run cfg (init disk) evs).infos = steps (init (run cfg (init disk) evs).disk).infos := by
  refine eq_of_sorted (C09_all_steps_increasing cfg disk hn evs hf)
    (loadInfos_sorted _ (run_WF cfg disk hn evs).nodup) fun x => ?_
  rw [C10_view_equals_storage cfg hs disk evs hd x]
  exact mem_steps_loadInfos.symm

/-- **C10** `reload()` re-establishes the agreement from every state whatsoever, with the steps in
increasing order, and does not touch storage. -/
theorem C10_reload (cfg : Cfg) (st : St) :
    (∀ x, x ∈ steps (exec cfg st .reload).1.infos ↔ x ∈ steps st.disk) ∧
    (steps (exec cfg st .reload).1.infos).Pairwise (· ≤ ·) ∧
    (exec cfg st .reload).1.disk = st.disk :=
  ⟨fun _ => mem_steps_loadInfos, loadInfos_le _, rfl⟩

/-- Finding (C10): the restriction on garbage collection is needed.  With `max_to_keep=1`, if deleting
the old step 1 fails after step 2 is saved, step 1 stays on disk but `all_steps()` no longer lists it,
so it is never collected again (until `reload`). -/
theorem C10_failed_deletion_fails :
    let s := run (demoCfg false (some 1)) (init [])
      [.save (call 1), .save { call 2 with deleteFailsAt := some 0 }, .save (call 3), .save (call 4)]
    steps s.infos = [4] ∧ steps s.disk = [1, 4] := by
  rw [init_nil]; decide

/-! ## C11 -/

/-- The policy's verdict `flags` on the listing `cs` rejects step `x`. -/
def Rejects (cs : List Ckpt) (flags : List Bool) (x : Int) : Prop :=
  ∃ (i : Nat) (c : Ckpt), cs[i]? = some c ∧ flags[i]? = some false ∧ c.step = x

/-- **C11** an accepted synchronous save: the policy was asked about the previous list plus the new
checkpoint; afterwards storage holds exactly the new checkpoint (unless rejected) and every old
directory, untouched, whose step the policy does not reject. -/
theorem C11_exact (cfg : Cfg) (hs : cfg.isAsync = false) (st : St) (c : SaveCall)
    (hd : c.deleteFailsAt = none)
    (h : (exec cfg st (.save c)).2 = .saved) :
    ∃ flags, cfg.preserve (st.infos ++ [⟨c.step, c.now, c.metric⟩]) = .ok flags ∧
      ∀ e, e ∈ (exec cfg st (.save c)).1.disk ↔
        ((e ∈ st.disk ∧ e.step ≠ c.step) ∨ e = ⟨c.step, c.commitTime, diskMetric cfg c.metric⟩) ∧
        ¬ Rejects (st.infos ++ [⟨c.step, c.now, c.metric⟩]) flags e.step := by
  simp only [exec] at h ⊢
  revert h
  refine save_cases cfg st c (fun r => r.2 = .saved → ∃ flags,
      cfg.preserve (st.infos ++ [⟨c.step, c.now, c.metric⟩]) = .ok flags ∧
      ∀ e, e ∈ r.1.disk ↔
        ((e ∈ st.disk ∧ e.step ≠ c.step) ∨ e = ⟨c.step, c.commitTime, diskMetric cfg c.metric⟩) ∧
        ¬ Rejects (st.infos ++ [⟨c.step, c.now, c.metric⟩]) flags e.step)
    (by simp) (by simp) (by simp) (by simp) ?_
  intro _ _ _
  unfold doSave
  simp only
  split
  · simp
  · split
    · simp
    · split
      · simp
      · rw [if_neg (by simp [hs])]
        unfold afterStore
        simp only
        split
        · simp
        · rename_i flags hflags
          intro _
          refine ⟨flags, hflags, ?_⟩
          intro e
          rw [if_neg (by simp [hs])]
          simp only [hd, gcDisk_none, mem_deleteSteps, List.mem_append, mem_deleteStep,
            List.mem_singleton]
          rw [mem_oldSteps]; rfl

/-- **C11** asynchronous: an accepted save whose commit succeeds, once finalized, has the same effect
on storage; between the call and finalization no old directory is touched (except an existing
directory of the very step being saved). -/
theorem C11_async_exact (cfg : Cfg) (ha : cfg.isAsync = true) (st : St) (c : SaveCall) (t : Int)
    (h : (exec cfg st (.save c)).2 = .saved) :
    ∃ flags, cfg.preserve (st.infos ++ [⟨c.step, c.now, c.metric⟩]) = .ok flags ∧
      (∀ e, e ∈ (run cfg st [.save c]).disk ↔ e ∈ st.disk ∧ e.step ≠ c.step) ∧
      (∀ e, e ∈ (run cfg st [.save c, .commitDone true t]).disk ↔
        (e ∈ st.disk ∧ e.step ≠ c.step) ∨ e = ⟨c.step, t, diskMetric cfg c.metric⟩) ∧
      (∀ e, e ∈ (run cfg st [.save c, .commitDone true t, .finalize none]).disk ↔
        ((e ∈ st.disk ∧ e.step ≠ c.step) ∨ e = ⟨c.step, t, diskMetric cfg c.metric⟩) ∧
        ¬ Rejects (st.infos ++ [⟨c.step, c.now, c.metric⟩]) flags e.step) := by
  simp only [run_cons, run_nil, exec] at h ⊢
  revert h
  refine save_cases cfg st c (fun r => r.2 = .saved → ∃ flags,
      cfg.preserve (st.infos ++ [⟨c.step, c.now, c.metric⟩]) = .ok flags ∧
      (∀ e, e ∈ r.1.disk ↔ e ∈ st.disk ∧ e.step ≠ c.step) ∧
      (∀ e, e ∈ (commitDone r.1 true t).1.disk ↔
        (e ∈ st.disk ∧ e.step ≠ c.step) ∨ e = ⟨c.step, t, diskMetric cfg c.metric⟩) ∧
      (∀ e, e ∈ (finalize (commitDone r.1 true t).1 none).1.disk ↔
        ((e ∈ st.disk ∧ e.step ≠ c.step) ∨ e = ⟨c.step, t, diskMetric cfg c.metric⟩) ∧
        ¬ Rejects (st.infos ++ [⟨c.step, c.now, c.metric⟩]) flags e.step))
    (by simp) (by simp) (by simp) (by simp) ?_
  intro _ _ _
  unfold doSave
  simp only
  split
  · simp
  · split
    · simp
    · rename_i hae
      split
      · simp
      · unfold afterStore
        simp only
        split
        · simp
        · rename_i flags hflags
          intro _
          refine ⟨flags, hflags, ?_⟩
          have hae' : st.asyncErr = false := by simpa using hae
          simp [ha, commitDone, finalize, hae', gcDisk_none, mem_deleteSteps, mem_deleteStep]
          intro e _
          rw [mem_oldSteps]; rfl

theorem nodup_infos (cfg : Cfg) (disk : List Ckpt) (hn : (steps disk).Nodup) (evs : List Ev) :
    (steps (run cfg (init disk) evs).infos).Nodup := by
  have := run_inv cfg (fun s => WF s ∧ (steps s.infos).Nodup) (fun _ => True) (fun s e _ hs => by
    refine ⟨exec_WF cfg s e hs.1, ?_⟩
    have h := hs.2
    have hwait : ∀ t, (steps (waitFinished s t).1.infos).Nodup := by
      intro t
      unfold waitFinished
      split
      · exact h
      · split
        · split
          · exact h
          · exact h.sublist (steps_sublist List.filter_sublist)
        · exact h
    cases e with
    | save c =>
      refine save_cases cfg s c (fun r => (steps r.1.infos).Nodup) h h h (fun _ _ => hwait _) ?_
      intro _ _ _
      by_cases hc : c.step ∈ steps s.infos
      · simp [doSave, hc, h]
      · refine List.Nodup.sublist (steps_sublist (doSave_infos cfg s c)) ?_
        rw [steps_append]
        exact nodup_append_step h hc
    | delete x ok =>
      simp only [exec, delete]
      split
      · exact h
      · split
        · exact h
        · split
          · exact h
          · exact h.sublist (steps_sublist List.filter_sublist)
    | reload => exact (steps_loadInfos_perm _).nodup_iff.mpr hs.1.nodup
    | wait t =>
      simp only [exec]
      split
      · exact h
      · exact hwait t
    | pollError => simp only [exec]; split <;> exact h
    | commitDone ok t =>
      simp only [exec, commitDone]
      split
      · exact h
      · split <;> exact h
    | finalize d =>
      simp only [exec, finalize]
      split
      · exact h
      · split
        · exact h
        · split <;> exact h) evs (by simp) (init disk)
    ⟨init_WF disk hn, (steps_loadInfos_perm _).nodup_iff.mpr hn⟩
  exact this.2

/-- Number of surviving checkpoints after `LatestN`. -/
theorem latestN_survivors (n : Int) (hn : 0 ≤ n) (cs : List Ckpt) :
    ((deleteSteps cs (oldStepsToRemove cs (Verif.Policies.latestN (some n) cs))).length : Int) ≤ n := by
  have hspec := Verif.Policies.Props.C01_latestN n hn cs
  -- every survivor lies among the last n
  have hsub : deleteSteps cs (oldStepsToRemove cs (Verif.Policies.latestN (some n) cs)) <+
      cs.drop (cs.length - n.toNat) := by
    have hsplit : cs = cs.take (cs.length - n.toNat) ++ cs.drop (cs.length - n.toNat) :=
      (List.take_append_drop _ _).symm
    generalize hrm : oldStepsToRemove cs (Verif.Policies.latestN (some n) cs) = rm
    have hdel : deleteSteps cs rm = deleteSteps (cs.take (cs.length - n.toNat)) rm ++
        deleteSteps (cs.drop (cs.length - n.toNat)) rm := by
      simp only [deleteSteps]
      rw [← List.filter_append, List.take_append_drop]
    rw [hdel]
    have hnil : deleteSteps (cs.take (cs.length - n.toNat)) rm = [] := by
      rw [List.eq_nil_iff_forall_not_mem]
      intro c hc
      rw [mem_deleteSteps] at hc
      obtain ⟨hc1, hc2⟩ := hc
      obtain ⟨i, hi⟩ := List.getElem?_of_mem hc1
      rw [List.getElem?_take] at hi
      split at hi
      · rename_i hlt
        apply hc2
        rw [← hrm, mem_oldSteps]
        refine ⟨i, c, hi, ?_, rfl⟩
        have hil : i < cs.length := by omega
        have hk := hspec.2 i hil
        have hlen := hspec.1
        have hget : (Verif.Policies.latestN (some n) cs)[i]? = some ((Verif.Policies.latestN (some n) cs)[i]'(by omega)) :=
          List.getElem?_eq_getElem (by omega)
        rw [hget]
        cases hb : (Verif.Policies.latestN (some n) cs)[i]'(by omega) with
        | false => rfl
        | true =>
          have : Verif.Policies.Props.Kept (Verif.Policies.latestN (some n) cs) i := by
            unfold Verif.Policies.Props.Kept; rw [hget, hb]
          have := hk.mp this
          simp at this; omega
      · simp at hi
    rw [hnil, List.nil_append]
    exact List.filter_sublist
  have := hsub.length_le
  rw [List.length_drop] at this
  omega

theorem length_le_of_nodup_subset {a b : List Int} (ha : a.Nodup) (h : ∀ x ∈ a, x ∈ b) :
    a.length ≤ b.length := by
  induction a generalizing b with
  | nil => simp
  | cons x a ih =>
    rw [List.nodup_cons] at ha
    have hx := h x (by simp)
    have h2 : a.length ≤ (b.erase x).length := ih ha.2 fun y hy => by
      have hne : y ≠ x := fun e => ha.1 (e ▸ hy)
      exact (List.mem_erase_of_ne hne).mpr (h y (by simp [hy]))
    have h3 := List.length_erase_of_mem hx
    have h4 := List.length_pos_of_mem hx
    simp only [List.length_cons]
    omega

theorem defaultPreserve_latestN (o : KeepOptions) (h1 : o.keepPeriod = none)
    (h2 : o.keepTimeInterval = none) (h3 : o.bestFn = false) (cs : List Ckpt) :
    defaultPreserve o cs = .ok (Verif.Policies.latestN o.maxToKeep cs) := by
  simp [defaultPreserve, h1, h2, h3, Verif.Policies.anyPolicy]

/-- **C11** `max_to_keep = n ≥ 1` and no other retention option, synchronous manager: after every
history that ends with an accepted save, at most `n` step directories are committed and the step just
saved is one of them (whatever was in storage when the manager was created). -/
theorem C11_max_to_keep (cfg : Cfg) (hs : cfg.isAsync = false) (o : KeepOptions) (n : Int)
    (hn : 1 ≤ n) (ho : o.keepPeriod = none ∧ o.keepTimeInterval = none ∧ o.bestFn = false ∧
      o.maxToKeep = some n)
    (hp : cfg.preserve = defaultPreserve o) (disk : List Ckpt) (hnd : (steps disk).Nodup)
    (evs : List Ev) (c : SaveCall) (hd : ∀ e ∈ evs ++ [Ev.save c], DeletionsSucceed e)
    (hsaved : (exec cfg (run cfg (init disk) evs) (.save c)).2 = .saved) :
    ((run cfg (init disk) (evs ++ [.save c])).disk.length : Int) ≤ n ∧
    c.step ∈ steps (run cfg (init disk) (evs ++ [.save c])).disk := by
  obtain ⟨ho1, ho2, ho3, ho4⟩ := ho
  have hpol : cfg.preserve = fun cs => .ok (Verif.Policies.latestN (some n) cs) := by
    rw [hp]; funext cs; rw [defaultPreserve_latestN o ho1 ho2 ho3, ho4]
  have hagree := C10_view_equals_storage cfg hs disk (evs ++ [.save c]) hd
  have hwf := run_WF cfg disk hnd (evs ++ [.save c])
  have hinf : (run cfg (init disk) (evs ++ [.save c])).infos =
      (exec cfg (run cfg (init disk) evs) (.save c)).1.infos := by
    rw [run_append]; rfl
  -- the cache after the save
  have hcache : ((exec cfg (run cfg (init disk) evs) (.save c)).1.infos.length : Int) ≤ n := by
    generalize run cfg (init disk) evs = st at hsaved
    simp only [exec] at hsaved ⊢
    revert hsaved
    refine save_cases cfg st c (fun r => r.2 = .saved → (r.1.infos.length : Int) ≤ n)
      (by simp) (by simp) (by simp) (by simp) ?_
    intro _ _ _ h
    obtain ⟨_, flags, hflags, hi⟩ := doSave_saved h
    rw [hi]
    rw [hpol] at hflags
    simp only [Except.ok.injEq] at hflags
    rw [← hflags]
    exact latestN_survivors n (by omega) _
  have hlatest := C09_accepted_is_latest cfg (run cfg (init disk) evs) c
    (by rw [hpol]; exact latestN_keepsNewest (some n) (by simp; omega)) hsaved
  constructor
  · have := length_le_of_nodup_subset hwf.nodup (fun x hx => (hagree x).mpr hx)
    rw [hinf] at this
    simp only [steps, List.length_map] at this
    omega
  · rw [← hagree, hinf]
    rw [latestStep_eq] at hlatest
    exact List.mem_of_getLast? hlatest

/-- Non-vacuity of `C11_max_to_keep`. -/
example :
    let s := run { demoCfg false none with preserve := defaultPreserve ⟨none, none, false, false, some 2, true⟩ }
      (init []) [.save (call 1), .save (call 4), .save (call 9)]
    steps s.disk = [4, 9] := by
  rw [init_nil]; decide

end Verif.Manager.Props
