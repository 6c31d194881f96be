import Verif.Manager.Props

/-!
# Properties C12–C15: failures of background saves, best step, read-only managers
-/

namespace Verif.Manager.Props

open Verif.Manager
open Verif.Policies (Ckpt)
open Verif.SavePolicy (Ctx)
open scoped List

/-! ## C12 -/

/-- Bookkeeping invariant of the background activities, as long as nobody else consumes the async
checkpointer's stored exception. -/
def Linked (st : St) : Prop :=
  ∀ f, st.fin = some f → f.status = .running →
    f.raisedTo = [] ∧
    ((∃ k, st.commit = some k ∧ k.serial = f.serial) ∨
     (st.commit = none ∧ (st.asyncErr = true ∨ f.serial ∈ st.committed)))

theorem not_running_of_not_busy {st : St} (h : busy st = false) {f : Fin} (hf : st.fin = some f) :
    f.status ≠ .running := by
  have := (busy_false h).1
  simp only [finRunning, hf] at this
  intro e; rw [e] at this; simp at this

theorem linked_of_not_running {st : St} (h : ∀ f, st.fin = some f → f.status ≠ .running) :
    Linked st := fun f hf hr => absurd hr (h f hf)

theorem waitFinished_status (st : St) (t : Nat) (h : ∀ f, st.fin = some f → f.status ≠ .running) :
    ∀ f, (waitFinished st t).1.fin = some f → f.status ≠ .running := by
  unfold waitFinished
  split
  · exact h
  · rename_i f hf
    split
    · rename_i hfail
      split
      · exact h
      · intro g hg; simp at hg; subst hg; simp [hfail]
    · exact h

theorem afterStore_linked (cfg : Cfg) (st : St) (c : SaveCall)
    (hnr : ∀ f, st.fin = some f → f.status ≠ .running)
    (hk : cfg.isAsync = true → ∃ k, st.commit = some k ∧ k.serial = st.serial) :
    Linked (afterStore cfg st c).1 := by
  unfold afterStore
  simp only
  split
  · exact linked_of_not_running hnr
  · split
    · rename_i ha
      intro f hf _
      simp at hf; subst hf
      exact ⟨rfl, .inl (by simpa using hk ha)⟩
    · exact linked_of_not_running hnr

theorem doSave_linked (cfg : Cfg) (st : St) (c : SaveCall) (hb : busy st = false) :
    Linked (doSave cfg st c).1 := by
  have hnr : ∀ f, st.fin = some f → f.status ≠ .running := fun f hf => not_running_of_not_busy hb hf
  unfold doSave
  simp only
  split
  · exact linked_of_not_running hnr
  · split
    · exact linked_of_not_running hnr
    · split
      · exact linked_of_not_running hnr
      · split
        · exact afterStore_linked cfg _ c hnr (fun _ => ⟨_, rfl, rfl⟩)
        · rename_i ha; exact afterStore_linked cfg _ c hnr (fun h => absurd h ha)

theorem exec_linked (cfg : Cfg) (st : St) (e : Ev) (he : e ≠ .pollError) (h : Linked st) :
    Linked (exec cfg st e).1 := by
  cases e with
  | save c =>
    refine save_cases cfg st c (fun r => Linked r.1) h h h ?_ ?_
    · intro hb _
      exact linked_of_not_running
        (waitFinished_status st _ fun f hf => not_running_of_not_busy hb hf)
    · intro hb _ _; exact doSave_linked cfg st c hb
  | delete s ok =>
    simp only [exec, delete]
    split
    · exact h
    · split
      · exact h
      · split
        · exact h
        · intro f hf hr
          obtain ⟨h1, h2⟩ := h f hf hr
          refine ⟨h1, ?_⟩
          rcases h2 with ⟨k, hk, hs⟩ | ⟨hk, hs⟩
          · left
            refine ⟨if k.info.step == s then { k with tmpGone := true } else k,
              by simp only [hk, Option.map_some], ?_⟩
            split <;> simpa using hs
          · right; exact ⟨by simp [hk], hs⟩
  | reload => exact h
  | wait t =>
    simp only [exec]
    split
    · exact h
    · rename_i hr
      refine linked_of_not_running (waitFinished_status st t fun f hf hs => hr ?_)
      simp [finRunning, hf, hs]
  | pollError => exact absurd rfl he
  | commitDone ok t =>
    simp only [exec, commitDone]
    split
    · exact h
    · rename_i k hk
      split
      · intro f hf hr
        obtain ⟨h1, h2⟩ := h f hf hr
        refine ⟨h1, .inr ⟨rfl, .inr ?_⟩⟩
        rcases h2 with ⟨k', hk', hs⟩ | ⟨hk', _⟩
        · rw [hk] at hk'; simp at hk'; subst hk'; simp [hs]
        · rw [hk] at hk'; simp at hk'
      · intro f hf hr
        exact ⟨(h f hf hr).1, .inr ⟨rfl, .inl rfl⟩⟩
  | finalize d =>
    simp only [exec, finalize]
    split
    · exact h
    · split
      · exact h
      · split
        · refine linked_of_not_running fun g hg => ?_
          simp at hg; subst hg; simp
        · refine linked_of_not_running fun g hg => ?_
          simp at hg; subst hg; simp only; split <;> simp

theorem init_linked (disk : List Ckpt) : Linked (init disk) := by
  intro f hf; simp [init] at hf

theorem run_linked (cfg : Cfg) (disk : List Ckpt) (evs : List Ev) (hp : Ev.pollError ∉ evs) :
    Linked (run cfg (init disk) evs) :=
  run_inv cfg Linked (· ≠ .pollError) (fun s e he h => exec_linked cfg s e he h) evs
    (fun _ he h => hp (h ▸ he)) _ (init_linked disk)

theorem gcDisk_lost {disk : List Ckpt} {rm : List Int} {k : Option Nat} {x : Int}
    (h1 : x ∈ steps disk) (h2 : x ∉ steps (gcDisk disk rm k).1) : x ∈ rm := by
  obtain ⟨c, hc, rfl⟩ := mem_steps.mp h1
  by_cases h : c.step ∈ rm
  · exact h
  · exact absurd (mem_steps.mpr ⟨c, gcDisk_keeps disk rm k c hc h, rfl⟩) h2

/-- **C12** (partial: histories in which no user thread calls `check_for_errors()` or `restore()`,
the two calls that can consume the stored exception — see the finding below).  A committed step `x`
disappears from storage only through: an explicit `delete(x)`; a `save(x)` that overwrites an
unlisted directory of the same step; the garbage collection of a synchronous save, whose own
checkpoint has then been committed; or the garbage collection of an asynchronous save *whose own
commit has succeeded*, for a step its preservation policy rejected. -/
theorem C12_loss_only_after_commit_partial (cfg : Cfg) (disk : List Ckpt) (evs : List Ev)
    (hp : Ev.pollError ∉ evs) (e : Ev) (x : Int)
    (hx : x ∈ steps (run cfg (init disk) evs).disk)
    (hlost : x ∉ steps (exec cfg (run cfg (init disk) evs) e).1.disk) :
    e = .delete x true ∨
    (∃ c, e = .save c ∧ (c.step = x ∨ (cfg.isAsync = false ∧
      (exec cfg (run cfg (init disk) evs) e).1.committed =
        ((run cfg (init disk) evs).serial + 1) :: (run cfg (init disk) evs).committed))) ∨
    (∃ d f, e = .finalize d ∧ (run cfg (init disk) evs).fin = some f ∧ x ∈ f.toRemove ∧
      f.serial ∈ (run cfg (init disk) evs).committed) := by
  have hlink := run_linked cfg disk evs hp
  generalize run cfg (init disk) evs = st at *
  cases e with
  | save c =>
    right; left
    refine ⟨c, rfl, ?_⟩
    simp only [exec] at hlost ⊢
    revert hlost
    refine save_cases cfg st c (fun r => x ∉ steps r.1.disk → c.step = x ∨ (cfg.isAsync = false ∧
      r.1.committed = (st.serial + 1) :: st.committed))
      (fun h => absurd hx h) (fun h => absurd hx h) (fun h => absurd hx h) ?_ ?_
    · intro _ _ h; rw [(waitFinished_disk st c.thread).1] at h; exact absurd hx h
    · intro _ _ _
      by_cases hcx : c.step = x
      · exact fun _ => .inl hcx
      · have hx' : x ∈ steps (deleteStep st.disk c.step) :=
          mem_steps_deleteStep.mpr ⟨hx, fun e => hcx e.symm⟩
        unfold doSave
        simp only
        split
        · exact fun h => absurd hx h
        · split
          · exact fun h => absurd hx h
          · split
            · exact fun h => absurd hx' h
            · split
              · rename_i ha
                unfold afterStore
                simp only
                split
                · exact fun h => absurd hx' h
                · rw [if_pos ha]; exact fun h => absurd hx' h
              · rename_i ha
                intro _
                right
                refine ⟨by simpa using ha, ?_⟩
                exact (afterStore_disk cfg _ c).2.2.2.1
  | delete s ok =>
    left
    simp only [exec, delete] at hlost
    split at hlost
    · exact absurd hx hlost
    · split at hlost
      · exact absurd hx hlost
      · split at hlost
        · exact absurd hx hlost
        · rename_i hok
          simp only [mem_steps_deleteStep] at hlost
          have : x = s := by
            apply Classical.byContradiction; intro hne; exact hlost ⟨hx, hne⟩
          subst this
          simp at hok; rw [hok]
  | reload => exact absurd hx hlost
  | wait t =>
    simp only [exec] at hlost
    split at hlost
    · exact absurd hx hlost
    · simp only [(waitFinished_disk st t).1] at hlost; exact absurd hx hlost
  | pollError => simp only [exec] at hlost; split at hlost <;> exact absurd hx hlost
  | commitDone ok t =>
    simp only [exec, commitDone] at hlost
    split at hlost
    · exact absurd hx hlost
    · split at hlost
      · simp only [steps_append, List.mem_append] at hlost; exact absurd (.inl hx) hlost
      · exact absurd hx hlost
  | finalize d =>
    right; right
    simp only [exec, finalize] at hlost
    split at hlost
    · exact absurd hx hlost
    · rename_i f hf
      split at hlost
      · exact absurd hx hlost
      · rename_i hrun
        split at hlost
        · exact absurd hx hlost
        · rename_i hae
          refine ⟨d, f, rfl, hf, gcDisk_lost hx hlost, ?_⟩
          have hstat : f.status = .running := by
            simp at hrun; exact hrun.1
          have hcm : st.commit = none := by
            simp at hrun; exact hrun.2
          obtain ⟨_, h2⟩ := hlink f hf hstat
          rcases h2 with ⟨k, hk, _⟩ | ⟨_, h3⟩
          · rw [hcm] at hk; simp at hk
          · rcases h3 with h3 | h3
            · exact absurd h3 hae
            · exact h3

/-- Events a failing background save may be interleaved with in the next theorem. -/
def Benign : Ev → Prop
  | .wait _ => True
  | .reload => True
  | .finalize _ => True
  | .commitDone ok _ => ok = false
  | _ => False

/-- **C12** end to end (partial, as above): after an accepted asynchronous save, as long as its commit
does not succeed — however the commit failure, the finalize thread, waits by any threads and reloads
are interleaved — storage is exactly what it was before the call (minus an unlisted directory of the
very step being saved): no old checkpoint is collected, and the failed step is not committed. -/
theorem C12_failed_save_keeps_storage_partial (cfg : Cfg) (ha : cfg.isAsync = true) (st : St)
    (c : SaveCall) (h : (exec cfg st (.save c)).2 = .saved) (evs : List Ev)
    (hb : ∀ e ∈ evs, Benign e) :
    (run cfg st (.save c :: evs)).disk = deleteStep st.disk c.step := by
  rw [run_cons]
  have hinit : (exec cfg st (.save c)).1.disk = deleteStep st.disk c.step ∧
      (exec cfg st (.save c)).1.commit.isSome := by
    simp only [exec] at h ⊢
    revert h
    refine save_cases cfg st c (fun r => r.2 = .saved → r.1.disk = deleteStep st.disk c.step ∧
      r.1.commit.isSome) (by simp) (by simp) (by simp) (by simp) ?_
    intro _ _ _
    unfold doSave
    simp only
    split
    · simp
    · split
      · simp
      · split
        · simp
        · unfold afterStore
          simp only [if_pos ha]
          split
          · simp
          · simp
  generalize (exec cfg st (.save c)).1 = s0 at hinit
  have := run_inv cfg (fun s => s.disk = deleteStep st.disk c.step ∧
      (s.commit.isSome ∨ s.asyncErr = true ∨ finRunning s = false)) Benign ?_ evs hb s0
      ⟨hinit.1, .inl hinit.2⟩
  · exact this.1
  · intro s e he ⟨h1, h2⟩
    cases e with
    | save c => exact absurd he (by simp [Benign])
    | delete _ _ => exact absurd he (by simp [Benign])
    | pollError => exact absurd he (by simp [Benign])
    | reload => exact ⟨h1, h2⟩
    | wait t =>
      simp only [exec]
      split
      · exact ⟨h1, h2⟩
      · rename_i hr
        have hw := waitFinished_disk s t
        refine ⟨by simp only [hw.1]; exact h1, .inr (.inr ?_)⟩
        simp only
        have := waitFinished_status s t (fun f hf hs => hr (by simp [finRunning, hf, hs]))
        unfold finRunning
        split
        · rename_i f hf
          have h := this f hf
          cases hst : f.status <;> simp_all
        · rfl
    | commitDone ok t =>
      have hok : ok = false := he
      subst hok
      simp only [exec, commitDone]
      split
      · exact ⟨h1, h2⟩
      · simp only [Bool.false_and, if_neg Bool.false_ne_true]
        exact ⟨h1, .inr (.inl (by trivial))⟩
    | finalize d =>
      simp only [exec, finalize]
      split
      · exact ⟨h1, h2⟩
      · rename_i f hf
        split
        · exact ⟨h1, h2⟩
        · rename_i hrun
          simp at hrun
          split
          · exact ⟨h1, .inr (.inr (by simp [finRunning]))⟩
          · rename_i hae
            rcases h2 with h2 | h2 | h2
            · rw [hrun.2] at h2; simp at h2
            · exact absurd h2 hae
            · simp [finRunning, hf, hrun.1] at h2

/-- Non-vacuity: with `max_to_keep=1` and step 1 committed, `save(2)` fails in the background. -/
example :
    let s := run (demoCfg true (some 1)) (init [])
      [.save (call 1), .commitDone true 0, .finalize none, .save (call 2), .wait 5,
       .commitDone false 0, .finalize none, .wait 0]
    steps s.disk = [1] := by
  rw [init_nil]; decide

/-- Finding (C12): **data loss**.  `max_to_keep=1`, step 1 committed.  `save(2)` is started; its
background commit fails; the main thread calls `check_for_errors()` (or `restore()`, which waits on
the same async checkpointer) before the finalize thread gets to it and receives the exception;
`_AsyncManager` hands it out only once (async_checkpointer.py:287-298), so the finalize thread sees no
error and deletes step 1.  No checkpoint is left, and `wait_until_finished()` then reports success. -/
theorem C12_polled_error_loses_data_fails :
    let pre := run (demoCfg true (some 1)) (init [])
      [.save (call 1), .commitDone true 0, .finalize none, .save (call 2), .commitDone false 0]
    steps pre.disk = [1] ∧
    (exec (demoCfg true (some 1)) pre .pollError).2 = .raised .background ∧
    let post := run (demoCfg true (some 1)) pre [.pollError, .finalize none]
    post.disk = [] ∧ steps post.infos = [2] ∧
    (exec (demoCfg true (some 1)) post (.wait 0)).2 = .done := by
  rw [init_nil]; decide

/-- Finding (C10/C12): after a failed asynchronous save the cache forgets committed steps.
`max_to_keep=1`, step 1 committed, `save(2)` fails in the background: step 1 is still on disk, but
after the failure is reported `latest_step()` is `None`, and an unforced `save(1)` is accepted, which
starts by removing the committed directory of step 1. -/
theorem C12_cache_forgets_committed_fails :
    let s := run (demoCfg true (some 1)) (init [])
      [.save (call 1), .commitDone true 0, .finalize none, .save (call 2), .commitDone false 0,
       .finalize none, .wait 0]
    steps s.disk = [1] ∧ latestStep s.infos = none ∧
    (exec (demoCfg true (some 1)) s (.save (call 1))).2 = .saved ∧
    (exec (demoCfg true (some 1)) s (.save (call 1))).1.disk = [] := by
  rw [init_nil]; decide

/-! ## C13 -/

/-- Not a `save` call. -/
def NotSave (e : Ev) : Prop := ∀ c, e ≠ .save c

/-- The finalize thread has failed for `f` and `waited` says which threads were told. -/
def FailedFor (st : St) (s : Int) (told : Nat → Prop) : Prop :=
  ∃ f, st.fin = some f ∧ f.status = .failed ∧ f.step = s ∧ ∀ t, t ∈ f.raisedTo ↔ told t

theorem exec_failed (cfg : Cfg) (st : St) (e : Ev) (he : NotSave e) (s : Int) (told : Nat → Prop)
    (h : FailedFor st s told) :
    FailedFor (exec cfg st e).1 s (fun t => told t ∨ e = .wait t) := by
  obtain ⟨f, hf, hst, hs, ht⟩ := h
  have same : ∀ st' : St, st'.fin = st.fin → (∀ t, e ≠ .wait t) →
      FailedFor st' s (fun t => told t ∨ e = .wait t) := by
    intro st' h1 h2
    refine ⟨f, by rw [h1, hf], hst, hs, fun t => ?_⟩
    rw [ht t]
    exact ⟨.inl, fun h => h.elim id (fun h => absurd h (h2 t))⟩
  cases e with
  | save c => exact absurd rfl (he c)
  | delete x ok =>
    simp only [exec, delete]
    split
    · exact same _ rfl (by simp)
    · split
      · exact same _ rfl (by simp)
      · split
        · exact same _ rfl (by simp)
        · exact same _ rfl (by simp)
  | reload => exact same _ rfl (by simp)
  | pollError => simp only [exec]; split <;> exact same _ rfl (by simp)
  | commitDone ok t =>
    simp only [exec, commitDone]
    split
    · exact same _ rfl (by simp)
    · split <;> exact same _ rfl (by simp)
  | finalize d =>
    simp only [exec, finalize, hf]
    rw [if_pos (by simp [hst])]
    exact same _ rfl (by simp)
  | wait t =>
    simp only [exec]
    rw [if_neg (by simp [finRunning, hf, hst])]
    simp only [waitFinished, hf, hst]
    split
    · rename_i hc
      refine ⟨f, hf, hst, hs, fun u => ?_⟩
      rw [ht u]
      refine ⟨.inl, fun h => h.elim id fun h => ?_⟩
      simp at h; subst h
      exact (ht t).mp (by simpa using hc)
    · refine ⟨_, rfl, rfl, hs, fun u => ?_⟩
      simp only [List.mem_cons, ht u]
      constructor
      · rintro (h | h)
        · exact .inr (by rw [h])
        · exact .inl h
      · rintro (h | h)
        · exact .inr h
        · simp at h; exact .inl h.symm

theorem run_failed (cfg : Cfg) (evs : List Ev) (st : St) (s : Int) (told : Nat → Prop)
    (he : ∀ e ∈ evs, NotSave e) (h : FailedFor st s told) :
    FailedFor (run cfg st evs) s (fun t => told t ∨ Ev.wait t ∈ evs) := by
  induction evs generalizing st told with
  | nil => simpa [run_nil] using h
  | cons e evs ih =>
    rw [run_cons]
    have h1 := exec_failed cfg st e (he e (by simp)) s told h
    have h2 := ih _ _ (fun e h => he e (by simp [h])) h1
    obtain ⟨f, a, b, c, d⟩ := h2
    refine ⟨f, a, b, c, fun t => ?_⟩
    rw [d t]
    simp only [List.mem_cons, or_assoc, eq_comm]

theorem wait_outcome (cfg : Cfg) (st : St) (s : Int) (told : Nat → Prop) (h : FailedFor st s told)
    (t : Nat) : ((exec cfg st (.wait t)).2 = .raised .background ↔ ¬ told t) ∧
      ((exec cfg st (.wait t)).2 = .done ↔ told t) := by
  obtain ⟨f, hf, hst, hs, ht⟩ := h
  simp only [exec]
  rw [if_neg (by simp [finRunning, hf, hst])]
  simp only [waitFinished, hf, hst]
  rw [← ht t]
  by_cases hc : t ∈ f.raisedTo
  · simp [hc]
  · simp [hc]

/-- **C13** In every history (without other consumers of the exception), when the background commit of
a save has failed and the finalize thread then runs, every thread that waits before the next save is
told exactly once: for any interleaving `evs` of waits by any threads, deletes, reloads etc., thread
`t`'s wait raises iff `t` has not waited since the failure, and returns normally iff it has. -/
theorem C13_reported_once_per_thread (cfg : Cfg) (disk : List Ckpt) (hist evs : List Ev)
    (hp : Ev.pollError ∉ hist) (f : Fin) (d : Option Nat)
    (hfin : (run cfg (init disk) hist).fin = some f) (hrun : f.status = .running)
    (hfail : (run cfg (init disk) hist).commit = none ∧ (run cfg (init disk) hist).asyncErr = true)
    (he : ∀ e ∈ evs, NotSave e) (t : Nat) :
    let st := run cfg (init disk) (hist ++ .finalize d :: evs)
    ((exec cfg st (.wait t)).2 = .raised .background ↔ Ev.wait t ∉ evs) ∧
    ((exec cfg st (.wait t)).2 = .done ↔ Ev.wait t ∈ evs) := by
  have hraised := (run_linked cfg disk hist hp f hfin hrun).1
  intro st
  have hst : st = run cfg (exec cfg (run cfg (init disk) hist) (.finalize d)).1 evs := by
    simp only [st, run_append, run_cons]
  have h0 : FailedFor (exec cfg (run cfg (init disk) hist) (.finalize d)).1 f.step (fun _ => False) := by
    simp only [exec, finalize, hfin]
    rw [if_neg (by simp [hrun, hfail.1]), if_pos hfail.2]
    exact ⟨_, rfl, rfl, rfl, fun t => by simp [hraised]⟩
  have h1 := run_failed cfg evs _ _ _ he h0
  rw [← hst] at h1
  have h2 := wait_outcome cfg st _ _ h1 t
  simpa using h2

/-- **C13** the next `save` of a thread that has not been told yet raises the background failure
(rather than silently succeeding), and removes the failed step from the cache. -/
theorem C13_next_save_raises (cfg : Cfg) (st : St) (s : Int) (told : Nat → Prop)
    (h : FailedFor st s told) (hc : st.commit = none) (c : SaveCall) (ht : ¬ told c.thread)
    (hgo : c.force = true ∨ shouldSave cfg st c = .ok true) :
    (exec cfg st (.save c)).2 = .raised .background ∧
    s ∉ steps (exec cfg st (.save c)).1.infos ∧ (exec cfg st (.save c)).1.disk = st.disk := by
  obtain ⟨f, hf, hst, hs, htold⟩ := h
  have hgo' : (if c.force then (.ok true : Except Unit Bool) else shouldSave cfg st c) = .ok true := by
    rcases hgo with h | h
    · simp [h]
    · split
      · rfl
      · exact h
  have hnt : f.raisedTo.contains c.thread = false := by
    simpa using fun h => ht ((htold c.thread).mp h)
  have hb : busy st = false := by simp [busy, finRunning, hf, hst, hc]
  have hw : waitFinished st c.thread = ({ st with
      fin := some { f with raisedTo := c.thread :: f.raisedTo },
      infos := deleteStep st.infos f.step }, true) := by
    simp [waitFinished, hf, hst]
    simpa using fun h => absurd ((htold c.thread).mp h) ht
  simp only [exec, save, hgo', hb, hw]
  refine ⟨rfl, ?_, rfl⟩
  simp [mem_steps_deleteStep, hs]

/-- Non-vacuity of C13: thread 0 is told, then not again; thread 7 is told afterwards. -/
example :
    let hist := [Ev.save (call 1), .commitDone true 0, .finalize none, .save (call 2),
      .commitDone false 0]
    let st := run (demoCfg true (some 1)) (init []) hist
    (∃ f, st.fin = some f ∧ f.status = .running) ∧ st.commit = none ∧ st.asyncErr = true ∧
    (exec (demoCfg true (some 1)) (run (demoCfg true (some 1)) st [.finalize none]) (.wait 0)).2
      = .raised .background ∧
    (exec (demoCfg true (some 1)) (run (demoCfg true (some 1)) st [.finalize none, .wait 0]) (.wait 0)).2
      = .done ∧
    (exec (demoCfg true (some 1)) (run (demoCfg true (some 1)) st [.finalize none, .wait 0]) (.wait 7)).2
      = .raised .background := by
  rw [init_nil]
  refine ⟨⟨_, rfl, rfl⟩, by decide, by decide, by decide, by decide, by decide⟩

/-! ## C14 -/

/-- `b` is at least as good as `a` under the mode. -/
def Better (minMode : Bool) (a b : Int) : Prop := if minMode then b ≤ a else a ≤ b

theorem mem_withMetric {infos : List Ckpt} {p : Int × Ckpt} :
    p ∈ (infos.filterMap fun c => c.metric.map fun m => (m, c)) ↔
      p.2 ∈ infos ∧ p.2.metric = some p.1 := by
  simp only [List.mem_filterMap, Option.map_eq_some_iff]
  constructor
  · rintro ⟨c, hc, m, hm, rfl⟩; exact ⟨hc, hm⟩
  · rintro ⟨h1, h2⟩; exact ⟨p.2, h1, p.1, h2, rfl⟩

theorem mem_sortByMetric {cfg : Cfg} {infos : List Ckpt} {p : Int × Ckpt} :
    p ∈ sortByMetric cfg infos ↔ p.2 ∈ infos ∧ p.2.metric = some p.1 := by
  rw [← mem_withMetric]; exact (List.mergeSort_perm _ _).mem_iff

theorem keyLe_trans (mm : Bool) (a b c : Int × Ckpt) (h1 : keyLe mm a b = true)
    (h2 : keyLe mm b c = true) : keyLe mm a c = true := by
  unfold keyLe at *; cases mm <;> simp at * <;> omega

theorem keyLe_total (mm : Bool) (a b : Int × Ckpt) : (keyLe mm a b || keyLe mm b a) = true := by
  unfold keyLe; cases mm <;> simp <;> omega

theorem pairwise_last {α : Type} {R : α → α → Prop} {l : List α} (h : l.Pairwise R) {z a : α}
    (hz : l.getLast? = some z) (ha : a ∈ l) : a = z ∨ R a z := by
  induction l with
  | nil => simp at ha
  | cons x l ih =>
    rw [List.pairwise_cons] at h
    cases l with
    | nil => simp at hz ha; exact .inl (ha.trans hz)
    | cons y l =>
      rw [List.getLast?_cons_cons] at hz
      rcases List.mem_cons.mp ha with rfl | ha
      · exact .inr (h.1 z (List.mem_of_getLast? hz))
      · exact ih h.2 hz ha

/-- **C14** with tracking on, `best_step()` is `None` iff no checkpoint carries metrics. -/
theorem C14_none_iff (cfg : Cfg) (ht : cfg.trackBest = true) (infos : List Ckpt) :
    bestStep cfg infos = none ↔ ∀ c ∈ infos, c.metric = none := by
  simp only [bestStep, ht, Bool.not_true, Bool.false_eq_true, if_false]
  split
  · rename_i h
    simp at h; simp [h]
  · simp only [Option.map_eq_none_iff, List.getLast?_eq_none_iff]
    rw [List.eq_nil_iff_forall_not_mem]
    constructor
    · intro h c hc
      cases hm : c.metric with
      | none => rfl
      | some m => exact absurd (mem_sortByMetric.mpr ⟨hc, hm⟩) (h (m, c))
    · intro h p hp
      obtain ⟨h1, h2⟩ := mem_sortByMetric.mp hp
      rw [h _ h1] at h2; cases h2

theorem pair_sublist_of_lt {α : Type} {l : List α} {i j : Nat} {a b : α} (hij : i < j)
    (ha : l[i]? = some a) (hb : l[j]? = some b) : [a, b] <+ l := by
  induction l generalizing i j with
  | nil => simp at ha
  | cons x l ih =>
    obtain ⟨j, rfl⟩ : ∃ j', j = j' + 1 := ⟨j - 1, by omega⟩
    cases i with
    | zero =>
      simp at ha hb; subst ha
      exact (List.singleton_sublist.mpr (List.mem_of_getElem? hb)).cons_cons _
    | succ i =>
      simp at ha hb
      exact (ih (by omega) ha hb).cons _

theorem not_pair_sublist_last {α : Type} {l : List α} (hn : l.Nodup) {p q : α}
    (hl : l.getLast? = some p) : ¬ [p, q] <+ l := by
  induction l with
  | nil => simp at hl
  | cons x l ih =>
    rw [List.nodup_cons] at hn
    intro h
    cases l with
    | nil => have := h.length_le; simp at this
    | cons y l =>
      rw [List.getLast?_cons_cons] at hl
      rcases List.sublist_cons_iff.mp h with h | ⟨r, hr, h⟩
      · exact ih hn.2 hl h
      · simp at hr
        exact hn.1 (hr.1 ▸ List.mem_of_getLast? hl)

/-- **C14** otherwise it is the step of a checkpoint with metrics that is at least as good as every
checkpoint with metrics, and among equally good ones it is the one listed last (the latest one, in a
listing by increasing step).  The cached checkpoints are always distinct (`nodup_infos`). -/
theorem C14_best_is_optimal (cfg : Cfg) (ht : cfg.trackBest = true) (infos : List Ckpt)
    (hn : (steps infos).Nodup) (s : Int) (h : bestStep cfg infos = some s) :
    ∃ (i : Nat) (b : Ckpt) (m : Int), infos[i]? = some b ∧ b.step = s ∧ b.metric = some m ∧
      ∀ (j : Nat) (c : Ckpt) (k : Int), infos[j]? = some c → c.metric = some k →
        Better cfg.bestModeMin k m ∧ (k = m → j ≤ i) := by
  have hnd : infos.Nodup := by
    unfold steps at hn
    exact List.Pairwise.imp (fun h e => h (by rw [e])) (List.pairwise_map.mp hn)
  have hndp : (infos.filterMap fun c => c.metric.map fun m => (m, c)).Nodup := by
    refine List.Pairwise.filterMap (R := (· ≠ ·)) _ ?_ hnd
    intro a b hab p hp q hq e
    simp only [Option.map_eq_some_iff] at hp hq
    obtain ⟨_, _, rfl⟩ := hp
    obtain ⟨_, _, rfl⟩ := hq
    simp at e; exact hab e.2
  simp only [bestStep, ht, Bool.not_true, Bool.false_eq_true, if_false] at h
  split at h
  · simp at h
  · rw [Option.map_eq_some_iff] at h
    obtain ⟨p, hp, hs⟩ := h
    have hpm := List.mem_of_getLast? hp
    obtain ⟨h1, h2⟩ := mem_sortByMetric.mp hpm
    obtain ⟨i, hi⟩ := List.getElem?_of_mem h1
    refine ⟨i, p.2, p.1, hi, hs, h2, ?_⟩
    intro j c k hj hk
    have hcm : (k, c) ∈ sortByMetric cfg infos := mem_sortByMetric.mpr ⟨List.mem_of_getElem? hj, hk⟩
    have hsorted := List.pairwise_mergeSort (keyLe_trans cfg.bestModeMin) (keyLe_total cfg.bestModeMin)
      (infos.filterMap fun c => c.metric.map fun m => (m, c))
    have hle := pairwise_last hsorted hp hcm
    constructor
    · rcases hle with h | h
      · rw [← h]; unfold Better; split <;> simp
      · unfold keyLe at h; unfold Better
        split <;> simp_all
    · intro hkm
      apply Classical.byContradiction
      intro hji
      have hsub : [p, (k, c)] <+ (infos.filterMap fun c => c.metric.map fun m => (m, c)) := by
        have := (pair_sublist_of_lt (by omega : i < j) hi hj).filterMap
          (fun c : Ckpt => c.metric.map fun m => (m, c))
        simpa [h2, hk] using this
      have hst := List.pair_sublist_mergeSort (keyLe_trans cfg.bestModeMin)
        (keyLe_total cfg.bestModeMin) (by subst hkm; unfold keyLe; split <;> simp) hsub
      exact not_pair_sublist_last ((List.mergeSort_perm _ _).nodup_iff.mpr hndp) hp hst

/-- **C14** without tracking, `best_step()` is `latest_step()`. -/
theorem C14_untracked (cfg : Cfg) (ht : cfg.trackBest = false) (infos : List Ckpt) :
    bestStep cfg infos = latestStep infos := by
  simp [bestStep, ht]

/-- Non-vacuity: minimising, steps 1,2,3,5 with metrics 7,4,4,none: best is 3. -/
example : bestStep { demoCfg false none with trackBest := true, bestModeMin := true }
    [⟨1,0,some 7⟩, ⟨2,0,some 4⟩, ⟨3,0,some 4⟩, ⟨5,0,none⟩] = some 3 := by
  simp [bestStep, sortByMetric, List.mergeSort, List.MergeSort.Internal.splitInTwo, keyLe]

/-- The metrics in the cache are those in storage (and those the running commit will publish). -/
def SameMetrics (st : St) : Prop :=
  (∀ a ∈ st.infos, ∀ d ∈ st.disk, a.step = d.step → a.metric = d.metric) ∧
  (∀ k, st.commit = some k → ∀ a ∈ st.infos, a.step = k.info.step → a.metric = k.info.metric)

theorem SameMetrics.mono {st st' : St} (h : SameMetrics st) (hi : ∀ a ∈ st'.infos, a ∈ st.infos)
    (hd : ∀ d ∈ st'.disk, d ∈ st.disk)
    (hc : ∀ k, st'.commit = some k → ∃ k', st.commit = some k' ∧ k'.info = k.info) :
    SameMetrics st' := by
  refine ⟨fun a ha d hd' => h.1 a (hi a ha) d (hd d hd'), fun k hk a ha hs => ?_⟩
  obtain ⟨k', h1, h2⟩ := hc k hk
  rw [← h2] at hs ⊢
  exact h.2 k' h1 a (hi a ha) hs

theorem afterStore_sameMetrics (cfg : Cfg) (st : St) (c : SaveCall)
    (h : SameMetrics { st with infos := st.infos ++ [⟨c.step, c.now, c.metric⟩] }) :
    SameMetrics (afterStore cfg st c).1 := by
  unfold afterStore
  simp only
  split
  · exact h
  · split
    · exact h.mono (fun a ha => (mem_deleteSteps.mp ha).1) (fun d hd => hd) (fun k hk => ⟨k, hk, rfl⟩)
    · exact h.mono (fun a ha => (mem_deleteSteps.mp ha).1)
        (fun d hd => (gcDisk_sublist _ _ _).subset hd) (fun k hk => ⟨k, hk, rfl⟩)

theorem waitFinished_infos (st : St) (t : Nat) : ∀ a ∈ (waitFinished st t).1.infos, a ∈ st.infos := by
  unfold waitFinished
  split
  · simp
  · split
    · split
      · simp
      · intro a ha; exact (mem_deleteStep.mp ha).1
    · simp

theorem exec_sameMetrics (cfg : Cfg) (ht : cfg.trackBest = true) (hp : cfg.preventWriteMetrics = false)
    (st : St) (e : Ev) (hw : WF st) (h : SameMetrics st) : SameMetrics (exec cfg st e).1 := by
  have self : ∀ k, st.commit = some k → ∃ k', st.commit = some k' ∧ k'.info = k.info :=
    fun k hk => ⟨k, hk, rfl⟩
  have uniq : ∀ (l : List Ckpt), (steps l).Nodup → ∀ a ∈ l, ∀ d ∈ l, a.step = d.step →
      a.metric = d.metric := by
    intro l hl a ha d hd hs
    induction l with
    | nil => simp at ha
    | cons x l ih =>
      simp only [steps, List.map_cons, List.nodup_cons] at hl
      simp only [List.mem_cons] at ha hd
      rcases ha with rfl | ha <;> rcases hd with rfl | hd
      · rfl
      · exact absurd (List.mem_map.mpr ⟨d, hd, hs.symm⟩) hl.1
      · exact absurd (List.mem_map.mpr ⟨a, ha, hs⟩) hl.1
      · exact ih hl.2 ha hd
  cases e with
  | save c =>
    simp only [exec]
    refine save_cases cfg st c (fun r => SameMetrics r.1) h h h ?_ ?_
    · intro hb _
      have hwd := waitFinished_disk st c.thread
      exact h.mono (waitFinished_infos st _) (by simp [hwd.1]) (by rw [hwd.2.1]; exact self)
    · intro hb _ _
      have hcm := (busy_false hb).2
      unfold doSave
      simp only
      split
      · exact h
      · rename_i hns
        have hns : c.step ∉ steps st.infos := by simpa using hns
        have hne : ∀ a ∈ st.infos, a.step ≠ c.step := fun a ha e => hns (mem_steps.mpr ⟨a, ha, e⟩)
        split
        · exact h
        · split
          · exact h.mono (fun _ h => h) (fun d hd => (mem_deleteStep.mp hd).1) self
          · split
            · apply afterStore_sameMetrics
              constructor
              · intro a ha d hd hs
                simp only [List.mem_append, List.mem_singleton] at ha
                have hd := mem_deleteStep.mp hd
                rcases ha with ha | rfl
                · exact h.1 a ha d hd.1 hs
                · exact absurd hs.symm hd.2
              · intro k hk a ha hs
                simp at hk; subst hk
                simp only [List.mem_append, List.mem_singleton] at ha
                rcases ha with ha | rfl
                · exact absurd hs (hne a ha)
                · simp [diskMetric, ht, hp]
            · apply afterStore_sameMetrics
              constructor
              · intro a ha d hd hs
                simp only [List.mem_append, List.mem_singleton, mem_deleteStep] at ha hd
                rcases hd with hd | rfl
                · rcases ha with ha | rfl
                  · exact h.1 a ha d hd.1 hs
                  · exact absurd hs.symm hd.2
                · rcases ha with ha | rfl
                  · exact absurd hs (hne a ha)
                  · simp [diskMetric, ht, hp]
              · intro k hk; simp [hcm] at hk
  | delete s ok =>
    simp only [exec, delete]
    split
    · exact h
    · split
      · exact h
      · split
        · exact h
        · refine h.mono (fun a ha => (mem_deleteStep.mp ha).1) (fun a ha => (mem_deleteStep.mp ha).1) ?_
          intro k hk
          simp only [Option.map_eq_some_iff] at hk
          obtain ⟨k', hk', rfl⟩ := hk
          refine ⟨k', hk', ?_⟩
          split <;> rfl
  | reload =>
    constructor
    · intro a ha d hd hs
      exact uniq st.disk hw.nodup a ((loadInfos_perm _).mem_iff.mp ha) d hd hs
    · intro k hk a ha hs
      exact absurd (mem_steps.mpr ⟨a, (loadInfos_perm _).mem_iff.mp ha, hs⟩) (hw.fresh k hk)
  | wait t =>
    simp only [exec]
    split
    · exact h
    · have hwd := waitFinished_disk st t
      exact h.mono (waitFinished_infos st _) (by simp [hwd.1]) (by simp only [hwd.2.1]; exact self)
  | pollError => simp only [exec]; split <;> exact h
  | commitDone ok t =>
    simp only [exec, commitDone]
    split
    · exact h
    · rename_i k hk
      split
      · refine ⟨?_, by simp⟩
        intro a ha d hd hs
        simp only [List.mem_append, List.mem_singleton] at hd
        rcases hd with hd | rfl
        · exact h.1 a ha d hd hs
        · exact h.2 k hk a ha hs
      · exact h.mono (fun _ h => h) (fun _ h => h) (by simp)
  | finalize d =>
    simp only [exec, finalize]
    split
    · exact h
    · split
      · exact h
      · split
        · exact h
        · exact h.mono (fun _ h => h) (fun d hd => (gcDisk_sublist _ _ _).subset hd) self

/-- **C14** the metrics `best_step` ranks by are durable: when the best checkpoint is tracked and
`prevent_write_metrics` is unset, in every history (synchronous or not, with any failures) the metric
known for a step is the one stored with that step, so a new manager over the same storage ranks the
step the same way. -/
theorem C14_metrics_durable (cfg : Cfg) (ht : cfg.trackBest = true)
    (hp : cfg.preventWriteMetrics = false) (disk : List Ckpt) (hn : (steps disk).Nodup)
    (evs : List Ev) :
    let st := run cfg (init disk) evs
    ∀ a ∈ st.infos, ∀ b ∈ (init st.disk).infos, a.step = b.step → a.metric = b.metric := by
  have := run_inv cfg (fun s => WF s ∧ SameMetrics s) (fun _ => True)
    (fun s e _ hs => ⟨exec_WF cfg s e hs.1, exec_sameMetrics cfg ht hp s e hs.1 hs.2⟩) evs (by simp)
    (init disk) ⟨init_WF disk hn, ?_⟩
  · intro st a ha b hb hs
    exact this.2.1 a ha b ((loadInfos_perm _).mem_iff.mp hb) hs
  · have := exec_sameMetrics cfg ht hp ⟨[], disk, false, none, false, none, 0, []⟩ .reload
      ⟨hn, by simp⟩ ⟨by simp, by simp⟩
    exact this

/-- Non-vacuity: a save with a metric, and its metric is on disk. -/
example : let cfg := { demoCfg false none with trackBest := true }
    let st := run cfg ⟨[], [], false, none, false, none, 0, []⟩ [.save { call 1 with metric := some 5 }]
    st.infos.map (·.metric) = [some 5] ∧ st.disk.map (·.metric) = [some 5] := by decide

/-- Finding (C14): with `prevent_write_metrics=True` the metrics live only in the process that saved:
after a restart `best_step()` is `None` although it was 1 before. -/
theorem C14_prevent_write_metrics_fails :
    let cfg := { demoCfg false none with trackBest := true, preventWriteMetrics := true }
    let st := run cfg ⟨[], [], false, none, false, none, 0, []⟩ [.save { call 1 with metric := some 5 }]
    bestStep cfg st.infos = some 1 ∧ st.disk.map (·.metric) = [none] ∧
      bestStep cfg st.disk = none := by
  have h : run { demoCfg false none with trackBest := true, preventWriteMetrics := true }
      ⟨[], [], false, none, false, none, 0, []⟩ [.save { call 1 with metric := some 5 }] =
      ⟨[⟨1, 1, some 5⟩], [⟨1, 1, none⟩], false, none, false, none, 1, [1]⟩ := by decide
  simp only [h]
  simp [bestStep, sortByMetric]

/-! ## C15 -/

/-- **C15** (partial: calls without `force=True`).  A read-only manager: `save` returns `False`,
`delete` returns, and neither changes storage, in every history. -/
theorem C15_read_only_partial (cfg : Cfg) (hr : cfg.readOnly = true) (disk : List Ckpt)
    (evs : List Ev) (hf : NoForce evs) :
    (run cfg (init disk) evs).disk = disk ∧
    (∀ c, c.force = false → (exec cfg (run cfg (init disk) evs) (.save c)).2 = .skipped) ∧
    (∀ s ok, (exec cfg (run cfg (init disk) evs) (.delete s ok)).2 = .done) := by
  have hsv : ∀ st c, c.force = false → exec cfg st (.save c) = (st, .skipped) := by
    intro st c hc
    simp [exec, save, hc, shouldSave, hr]
  refine ⟨?_, fun c hc => by rw [hsv _ c hc], fun s ok => by simp [exec, delete, hr]⟩
  have := run_inv cfg (fun s => s.disk = disk ∧ s.commit = none ∧ s.fin = none)
    (fun e => ∀ c, e = .save c → c.force = false) ?_ evs (fun e he c hc => hf c (hc ▸ he)) (init disk)
    ⟨rfl, rfl, rfl⟩
  · exact this.1
  · intro s e he ⟨h1, h2, h3⟩
    cases e with
    | save c => rw [hsv s c (he c rfl)]; exact ⟨h1, h2, h3⟩
    | delete x ok => simp only [exec, delete, hr, if_true]; exact ⟨h1, h2, h3⟩
    | reload => exact ⟨h1, h2, h3⟩
    | wait t => simp [exec, finRunning, waitFinished, h1, h2, h3]
    | pollError => simp only [exec]; split <;> exact ⟨h1, h2, h3⟩
    | commitDone ok t => simp [exec, commitDone, h1, h2, h3]
    | finalize d => simp [exec, finalize, h1, h2, h3]

/-- Non-vacuity. -/
example : let cfg := { demoCfg false (some 1) with readOnly := true }
    (run cfg (init [⟨1, 0, none⟩]) [.save (call 3), .delete 1 true]).disk = [⟨1, 0, none⟩] := by decide

/-- Finding (C15): `save(step, force=True)` on a read-only manager writes (the read-only check is
inside `should_save`, which `force` skips, checkpoint_manager.py:1417) and then garbage-collects. -/
theorem C15_forced_save_writes_fails :
    let cfg := { demoCfg false (some 1) with readOnly := true }
    let r := exec cfg ⟨[⟨1, 0, none⟩], [⟨1, 0, none⟩], false, none, false, none, 0, []⟩
      (.save (call 3 true))
    r.2 = .saved ∧ steps r.1.disk = [3] := by decide

/-! ## C08 in the manager: the in-progress flag -/

/-- The continuous policy of C08 inside a manager. -/
def continuousCfg : Cfg :=
  { readOnly := false, isAsync := false, checkInProgress := true, trackBest := false,
    bestModeMin := false, preventWriteMetrics := false,
    savePolicy := fun c prev ctx => .ok (Verif.SavePolicy.continuousResult none c prev ctx),
    preserve := fun cs => .ok (Verif.Policies.latestN none cs) }

/-- Finding (C08): `save(step, force=True)` for a step that exists raises `StepAlreadyExistsError`
*after* setting the save-in-progress flag (checkpoint_manager.py:1473-1477), which nobody clears; from
then on, in every history of unforced saves, deletes, reloads and waits, no save is ever accepted
under `ContinuousCheckpointingPolicy`: checkpointing has silently stopped. -/
theorem C08_in_progress_stuck_fails (evs : List Ev) (hf : NoForce evs) (c : SaveCall)
    (hc : c.force = false) :
    let st := run continuousCfg (init []) [.save (call 1), .save (call 1 true)]
    st.inProgress = true ∧
    (exec continuousCfg (run continuousCfg st evs) (.save c)).2 = .skipped := by
  have h0 : run continuousCfg (init []) [.save (call 1), .save (call 1 true)] =
      ⟨[⟨1,1,none⟩], [⟨1,1,none⟩], true, none, false, none, 1, [1]⟩ := by rw [init_nil]; decide
  simp only
  rw [h0]
  have hsv : ∀ st : St, st.inProgress = true → ∀ c, c.force = false →
      exec continuousCfg st (.save c) = (st, .skipped) := by
    intro st hst c hc
    have : shouldSave continuousCfg st c = .ok false := by
      unfold shouldSave
      simp only [continuousCfg]
      simp only [Bool.false_eq_true, if_false]
      split
      · split <;> simp [Verif.SavePolicy.continuousResult, hst]
      · simp [Verif.SavePolicy.continuousResult, hst]
    simp [exec, save, hc, this]
  refine ⟨rfl, ?_⟩
  have := run_inv continuousCfg (fun s => s.inProgress = true ∧ s.commit = none ∧ s.fin = none)
    (fun e => ∀ c, e = .save c → c.force = false) ?_ evs (fun e he c hc => hf c (hc ▸ he))
    ⟨[⟨1,1,none⟩], [⟨1,1,none⟩], true, none, false, none, 1, [1]⟩ ⟨rfl, rfl, rfl⟩
  · rw [hsv _ this.1 c hc]
  · intro s e he ⟨h1, h2, h3⟩
    cases e with
    | save c => rw [hsv s h1 c (he c rfl)]; exact ⟨h1, h2, h3⟩
    | delete x ok =>
      simp only [exec, delete]
      split
      · exact ⟨h1, h2, h3⟩
      · split
        · exact ⟨h1, h2, h3⟩
        · split
          · exact ⟨h1, h2, h3⟩
          · exact ⟨h1, by simp [h2], h3⟩
    | reload => exact ⟨h1, h2, h3⟩
    | wait t => simp [exec, finRunning, waitFinished, h1, h2, h3]
    | pollError => simp only [exec]; split <;> exact ⟨h1, h2, h3⟩
    | commitDone ok t => simp [exec, commitDone, h1, h2, h3]
    | finalize d => simp [exec, finalize, h1, h2, h3]

end Verif.Manager.Props
