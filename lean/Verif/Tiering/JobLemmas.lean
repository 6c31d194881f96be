import Verif.Tiering.Inv

/-!
# Tiering service: how one step may change one job
-/
namespace Verif.Tiering

/-- The worker and job of a step a worker takes on a job it holds. -/
def Op.on : Op → Option (Worker × Nat)
  | .trigger w i _ => some (w, i)
  | .poll _ w i _ => some (w, i)
  | .heartbeat _ w i => some (w, i)
  | .endDelete _ w i => some (w, i)
  | .fail w i => some (w, i)
  | _ => none

/-- Does the step ask the storage service about, or send a heartbeat for, job `i`? -/
def Op.beats : Op → Nat → Bool
  | .poll _ _ k _, i => k == i
  | .heartbeat _ _ k, i => k == i
  | _, _ => false

/-- The claim that a step commits. -/
def claimOf (cfg : Cfg) (s : Sys) : Op → Option Claim
  | .claim w b now =>
    if now ≤ s.clk ∧ s.backendLocked b = false then claimSelect cfg w b now s.locked s.db else none
  | .claimCommit k => s.claims[k]?
  | _ => none

/-- How the row `j` of job `i` may look after step `o` in state `s`. -/
inductive JobChange (cfg : Cfg) (s : Sys) (o : Op) (i : Nat) (j : Job) : Job → Prop
  | same : JobChange cfg s o i j j
  | claimed (c : Claim) (hc : claimOf cfg s o = some c) (hi : c.job = i) (hn : c.now ≤ s.clk)
      (hj : j.claimable c.now = true) :
      JobChange cfg s o i j
        { j with status := .processing, expAt := some (c.now + cfg.lease), owner := some c.worker }
  | extended (w : Worker) (now : Nat) (ho : o.on = some (w, i)) (hb : o.beats i = true) (hn : now ≤ s.clk)
      (hs : j.status = .processing) (hw : j.owner = some w) :
      JobChange cfg s o i j { j with expAt := some (now + cfg.lease) }
  | triggered (w : Worker) (ho : o.on = some (w, i)) (hs : j.status = .processing) (hw : j.owner = some w) :
      JobChange cfg s o i j { j with hasReq := true }
  | completed (w : Worker) (ho : o.on = some (w, i)) (hs : j.status = .processing) (hw : j.owner = some w) :
      JobChange cfg s o i j { j with status := .completed, owner := none, expAt := none }
  | failed (w : Worker) (ho : o.on = some (w, i)) (hs : j.status = .processing) (hw : j.owner = some w) :
      JobChange cfg s o i j { j with status := .failed, owner := none, expAt := none }

theorem commit_jobs (d d' : DB) (i : Nat) (j : Job) (h : d.jobs[i]? = some j) {P : Job → Prop}
    (h0 : P j) (h1 : ∃ j', d'.jobs[i]? = some j' ∧ P j') :
    ∃ j', (commit d d').jobs[i]? = some j' ∧ P j' := by
  rcases commit_cases d d' with e | ⟨e, _⟩
  · rw [e]; exact ⟨j, h, h0⟩
  · rw [e]; exact h1

theorem claimCommit_job (cfg : Cfg) (s : Sys) (o : Op) (c : Claim) (hc : claimOf cfg s o = some c)
    (hn : c.now ≤ s.clk)
    (hcl : ∀ j, s.db.jobs[c.job]? = some j → j.claimable c.now = true) (i : Nat) (j : Job)
    (hj : s.db.jobs[i]? = some j) :
    ∃ j', (claimCommit cfg c s.db).jobs[i]? = some j' ∧ JobChange cfg s o i j j' := by
  rcases claimCommit_jobs cfg c s.db with e | e
  · exact ⟨j, e ▸ hj, .same⟩
  · rw [e, getElem?_modify_eq, hj]
    by_cases hi : c.job = i
    · simp only [Option.map_some, hi, if_true]
      exact ⟨_, rfl, .claimed c hc hi hn (hcl j (hi ▸ hj))⟩
    · simp only [Option.map_some, hi, if_false]
      exact ⟨_, rfl, .same⟩

theorem commit_or {d d' : DB} {l : List Job} (h : d'.jobs = l) :
    (commit d d').jobs = d.jobs ∨ (commit d d').jobs = l := by
  rcases commit_cases d d' with e | ⟨e, _⟩
  · exact Or.inl (by rw [e])
  · exact Or.inr (by rw [e, h])

theorem completeDelete_jobs (cfg : Cfg) (now : Nat) (w : Worker) (i : Nat) (d : DB) :
    (completeDelete cfg now w i d).jobs = d.jobs ∨
    (completeDelete cfg now w i d).jobs =
      d.jobs.modify i fun j => { j with status := .completed, owner := none, expAt := none } := by
  simp only [completeDelete]
  split
  · split
    · exact Or.inl rfl
    · next j hj =>
      refine commit_or ?_
      rw [completeJob_jobs]
      cases j.kind <;> cases j.target <;> rfl
  · exact Or.inl rfl

theorem modify_job {l : List Job} {i : Nat} {j : Job} (h : l[i]? = some j) (k : Nat) (f : Job → Job) :
    (l.modify k f)[i]? = some (if k = i then f j else j) := by
  rw [getElem?_modify_eq, h]; rfl

/-- The one way in which a job row changes. -/
theorem job_step (cfg : Cfg) (s : Sys) (h : SInv s) (o : Op) (i : Nat) (j : Job)
    (hj : s.db.jobs[i]? = some j) :
    ∃ j', (step cfg s o).db.jobs[i]? = some j' ∧ JobChange cfg s o i j j' := by
  have triv : ∃ j', s.db.jobs[i]? = some j' ∧ JobChange cfg s o i j j' := ⟨j, hj, .same⟩
  cases o with
  | tick n => exact triv
  | reserve now p b =>
    simp only [step]; split
    · simp only [Sys.setDb, reserve]; split <;> exact triv
    · exact triv
  | keepAlive now a => simp only [step]; split <;> exact triv
  | finRead a => simp only [step]; split <;> exact triv
  | finWrite now k =>
    simp only [step]; split
    · split
      · next r hr =>
        split
        · exact triv
        · split
          · next d hd =>
            obtain ⟨c, _⟩ := change_finalizeWrite h.db now r
              (fun t ht => ((h.fin r (List.mem_of_getElem? hr)).2 t ht).2) hd [i]
            refine ⟨j, ?_, .same⟩
            rw [c.lck i (by simp) (by simp [hj]), hj]
          · exact triv
      · exact triv
    · exact triv
  | finTrigger now l1 k =>
    simp only [step]; split
    · split
      · split
        · refine commit_jobs _ _ i j hj .same ⟨j, getElem?_append_old hj _, .same⟩
        · exact triv
      · exact triv
    · exact triv
  | prefRead a b => simp only [step]; split <;> exact triv
  | prefCheck k => simp only [step]; (repeat' split) <;> exact triv
  | prefCommit now k =>
    simp only [step]; split
    · split
      · split
        · refine commit_jobs _ _ i j hj .same ⟨j, getElem?_append_old hj _, .same⟩
        · exact triv
      · exact triv
    · exact triv
  | prefKeepAlive now t =>
    simp only [step]; split
    · refine ⟨j, ?_, .same⟩
      simp only [Sys.setDb, prefetchKeepAlive]
      repeat' split
      all_goals exact hj
    · exact triv
  | delete now a =>
    simp only [step]; split
    · refine ⟨j, ?_, .same⟩
      simp only [Sys.setDb, queueDelete]
      repeat' split
      all_goals first | exact hj | exact getElem?_append_old hj _
    · exact triv
  | claim w b now =>
    simp only [step]; split
    · next hg =>
      split
      · next c hc =>
        obtain ⟨_, _, hn, _, ⟨j0, hj0, he⟩, _⟩ := claimSelect_spec hc
        refine claimCommit_job cfg s _ c ?_ (hn ▸ hg.1) ?_ i j hj
        · simp only [claimOf, hg, and_self, if_true, hc]
        · intro j' hj'; rw [hj0] at hj'; cases hj'; rw [hn]; exact eligible_claimable he
      · exact triv
    · exact triv
  | claimSelect w b now =>
    simp only [step]; split
    · split <;> exact triv
    · exact triv
  | claimCommit k =>
    simp only [step]; split
    · next c hc =>
      obtain ⟨hn, j0, hj0, hcl, _⟩ := h.clm c (List.mem_of_getElem? hc)
      refine claimCommit_job cfg s (.claimCommit k) c hc hn ?_ i j hj
      intro j' hj'; rw [hj0] at hj'; cases hj'; exact hcl
    · exact triv
  | trigger w k b =>
    simp only [step]; split
    · simp only [Sys.setDb, saveTrigger]
      split
      · next hown =>
        obtain ⟨j0, hj0, hs, hw⟩ := (owns_iff _ _ _).1 hown
        by_cases hk : k = i
        · subst hk
          rw [hj] at hj0; cases hj0
          split
          · exact ⟨_, by simp only [DB.setJob, modify_job hj, if_true], .triggered w rfl hs hw⟩
          · refine commit_jobs _ _ _ j hj .same ⟨_, ?_, .failed w rfl hs hw⟩
            rw [failJob_jobs, modify_job hj, if_pos rfl]
        · split
          · exact ⟨_, by simp only [DB.setJob, modify_job hj, if_neg hk], .same⟩
          · refine commit_jobs _ _ _ j hj .same ⟨j, ?_, .same⟩
            rw [failJob_jobs, modify_job hj, if_neg hk]
      · exact triv
    · exact triv
  | poll now w k p =>
    simp only [step]; split
    · next hg =>
      split
      · split
        · simp only [Sys.setDb, pollCopy]
          split
          · next hown =>
            obtain ⟨j0, hj0, hs, hw⟩ := (owns_iff _ _ _).1 hown
            by_cases hk : k = i
            · subst hk
              rw [hj] at hj0; cases hj0
              have hx : (extendLease cfg now k s.db).jobs[k]? = some { j with expAt := some (now + cfg.lease) } := by
                simp only [extendLease, DB.setJob, modify_job hj, if_true]
              cases p
              · refine commit_jobs _ _ _ j hj .same ⟨_, ?_, .completed w rfl hs hw⟩
                rw [completeJob_jobs, modify_job hx, if_pos rfl]
              · refine commit_jobs _ _ _ j hj .same ⟨_, ?_, .failed w rfl hs hw⟩
                rw [failJob_jobs, modify_job hx, if_pos rfl]
              · exact ⟨_, hx, .extended w now rfl (by simp [Op.beats]) hg.1 hs hw⟩
              · refine commit_jobs _ _ _ j hj .same ⟨_, ?_, .failed w rfl hs hw⟩
                rw [failJob_jobs, modify_job hj, if_pos rfl]
              · exact triv
            · have hx : (extendLease cfg now k s.db).jobs[i]? = some j := by
                simp only [extendLease, DB.setJob, modify_job hj, if_neg hk]
              cases p
              · refine commit_jobs _ _ _ j hj .same ⟨_, ?_, .same⟩
                rw [completeJob_jobs, modify_job hx, if_neg hk]
              · refine commit_jobs _ _ _ j hj .same ⟨_, ?_, .same⟩
                rw [failJob_jobs, modify_job hx, if_neg hk]
              · exact ⟨_, hx, .same⟩
              · refine commit_jobs _ _ _ j hj .same ⟨_, ?_, .same⟩
                rw [failJob_jobs, modify_job hj, if_neg hk]
              · exact triv
          · exact triv
        · exact triv
      · exact triv
    · exact triv
  | heartbeat now w k =>
    simp only [step]; split
    · next hg =>
      split
      · split
        · exact triv
        · simp only [Sys.setDb, extendDelete]
          split
          · next hown =>
            obtain ⟨j0, hj0, hs, hw⟩ := (owns_iff _ _ _).1 hown
            by_cases hk : k = i
            · subst hk
              rw [hj] at hj0; cases hj0
              exact ⟨_, by simp only [extendLease, DB.setJob, modify_job hj, if_true],
                .extended w now rfl (by simp [Op.beats]) hg.1 hs hw⟩
            · exact ⟨_, by simp only [extendLease, DB.setJob, modify_job hj, if_neg hk], .same⟩
          · exact triv
      · exact triv
    · exact triv
  | beginDelete now w k =>
    simp only [step]; split
    · split
      · split
        · exact triv
        · refine ⟨j, ?_, .same⟩
          simp only [Sys.setDb, beginDelete]
          split
          · exact hj
          · split <;> exact hj
      · exact triv
    · exact triv
  | endDelete now w k =>
    simp only [step]; split
    · split
      · split
        · exact triv
        · simp only [Sys.setDb, completeDelete]
          split
          · next hown =>
            obtain ⟨j0, hj0, hs, hw⟩ := (owns_iff _ _ _).1 hown
            rcases completeDelete_jobs cfg now w k s.db with e | e
            · simp only [completeDelete, hown, if_true] at e
              rw [e]; exact triv
            simp only [completeDelete, hown, if_true] at e
            rw [e, modify_job hj]
            by_cases hk : k = i
            · subst hk
              rw [hj] at hj0; cases hj0
              rw [if_pos rfl]
              exact ⟨_, rfl, .completed w rfl hs hw⟩
            · rw [if_neg hk]; exact ⟨_, rfl, .same⟩
          · exact triv
      · exact triv
    · exact triv
  | fail w k =>
    simp only [step]; split
    · simp only [Sys.setDb, failById]
      split
      · next hown =>
        obtain ⟨j0, hj0, hs, hw⟩ := (owns_iff _ _ _).1 hown
        refine commit_jobs _ _ _ j hj .same ?_
        rw [failJob_jobs, modify_job hj]
        by_cases hk : k = i
        · subst hk
          rw [hj] at hj0; cases hj0
          rw [if_pos rfl]
          exact ⟨_, rfl, .failed w rfl hs hw⟩
        · rw [if_neg hk]; exact ⟨_, rfl, .same⟩
      · exact triv
    · exact triv

/-- Job rows that a step adds are queued and unowned. -/
theorem job_new (cfg : Cfg) (s : Sys) (h : SInv s) (o : Op) (i : Nat) (j : Job)
    (hj : (step cfg s o).db.jobs[i]? = some j) (hi : s.db.jobs.length ≤ i) :
    j.status = .queued ∧ (j.kind = .delAll → ∃ now, o = .delete now j.asset) := by
  have triv : s.db.jobs[i]? ≠ some j := by
    intro hj; have := (List.getElem?_eq_some_iff.1 hj).1; omega
  have hchg : ∀ {d' : DB}, d'.jobs.length = s.db.jobs.length → d'.jobs[i]? ≠ some j := by
    intro d' hl hj; have := (List.getElem?_eq_some_iff.1 hj).1; omega
  have hcm : ∀ {d' : DB}, d'.jobs.length = s.db.jobs.length → (commit s.db d').jobs[i]? ≠ some j := by
    intro d' hl
    rcases commit_cases s.db d' with e | ⟨e, _⟩
    · rw [e]; exact triv
    · rw [e]; exact hchg hl
  cases o with
  | tick n => exact absurd hj triv
  | reserve now p b =>
    exfalso; revert hj; simp only [step]; split
    · simp only [Sys.setDb, reserve]; split <;> exact triv
    · exact triv
  | keepAlive now a => exfalso; revert hj; simp only [step]; split <;> exact triv
  | finRead a => exfalso; revert hj; simp only [step]; split <;> exact triv
  | finWrite now k =>
    exfalso; revert hj
    simp only [step]; split
    · split
      · next r hr =>
        split
        · exact triv
        · split
          · next d hd =>
            unfold finalizeWrite tryCommit at hd
            dsimp only at hd
            split at hd
            · cases hd
              obtain ⟨_, _, e, _⟩ := finalize_fold now r.tps (s.db.setAsset r.asset fun x =>
                { x with state := .stored, finalizedAt := some now, writeExp := none })
                (dinv_setAsset h.db _ _ fun r h => by cases h)
                (fun t ht => ((h.fin r (List.mem_of_getElem? hr)).2 t ht).2)
              apply hchg
              rw [e]; rfl
            · cases hd
          · exact triv
      · exact triv
    · exact triv
  | finTrigger now l1 k =>
    revert hj
    simp only [step]; split
    · split
      · split
        · next r _ _ =>
          intro hj
          simp only [triggerCopy] at hj
          rcases commit_cases s.db { s.db with
            tps := s.db.tps ++ [{ asset := r.asset, backend := l1 }]
            jobs := s.db.jobs ++ [{ asset := r.asset, kind := .copy, target := some s.db.tps.length, createdAt := now }] }
            with e | ⟨e, _⟩
          · rw [e] at hj; exact absurd hj triv
          · rw [e] at hj
            rcases (getElem?_append_one _ _ _ _).1 hj with h' | ⟨_, rfl⟩
            · exact absurd h' triv
            · exact ⟨rfl, fun h => by cases h⟩
        · exact fun h => absurd h triv
      · exact fun h => absurd h triv
    · exact fun h => absurd h triv
  | prefRead a b => exfalso; revert hj; simp only [step]; split <;> exact triv
  | prefCheck k => exfalso; revert hj; simp only [step]; (repeat' split) <;> exact triv
  | prefCommit now k =>
    revert hj
    simp only [step]; split
    · split
      · split
        · next r _ _ =>
          intro hj
          simp only [prefetchCommit] at hj
          rcases commit_cases s.db { s.db with
            tps := s.db.tps ++ [{ asset := r.asset, backend := r.backend, expiresAt := some (now + cfg.keepAlive) }]
            jobs := s.db.jobs ++ [{ asset := r.asset, kind := .copy, target := some s.db.tps.length, createdAt := now }] }
            with e | ⟨e, _⟩
          · rw [e] at hj; exact absurd hj triv
          · rw [e] at hj
            rcases (getElem?_append_one _ _ _ _).1 hj with h' | ⟨_, rfl⟩
            · exact absurd h' triv
            · exact ⟨rfl, fun h => by cases h⟩
        · exact fun h => absurd h triv
      · exact fun h => absurd h triv
    · exact fun h => absurd h triv
  | prefKeepAlive now t =>
    exfalso; revert hj
    simp only [step]; split
    · simp only [Sys.setDb, prefetchKeepAlive]
      repeat' split
      all_goals exact triv
    · exact triv
  | delete now a =>
    revert hj
    simp only [step]; split
    · simp only [Sys.setDb, queueDelete]
      repeat' split
      all_goals first | exact fun h => absurd h triv | skip
      intro hj
      rcases (getElem?_append_one _ _ _ _).1 hj with h' | ⟨_, rfl⟩
      · exact absurd h' triv
      · exact ⟨rfl, fun _ => ⟨now, rfl⟩⟩
    · exact fun h => absurd h triv
  | claim w b now =>
    exfalso; revert hj
    simp only [step]; split
    · split
      · next c hc =>
        apply hchg
        rcases claimCommit_jobs cfg c s.db with e | e <;> simp [e]
      · exact triv
    · exact triv
  | claimSelect w b now =>
    exfalso; revert hj
    simp only [step]; split
    · split <;> exact triv
    · exact triv
  | claimCommit k =>
    exfalso; revert hj
    simp only [step]; split
    · next c hc =>
      apply hchg
      rcases claimCommit_jobs cfg c s.db with e | e <;> simp [e]
    · exact triv
  | trigger w k b =>
    exfalso; revert hj
    simp only [step]; split
    · simp only [Sys.setDb, saveTrigger]
      split
      · split
        · exact hchg (setJob_len _ _ _)
        · exact hcm (by simp [failJob_jobs])
      · exact triv
    · exact triv
  | poll now w k p =>
    exfalso; revert hj
    simp only [step]; split
    · split
      · split
        · simp only [Sys.setDb, pollCopy]
          split
          · cases p
            · exact hcm (by simp [completeJob_jobs, extendLease, DB.setJob])
            · exact hcm (by simp [failJob_jobs, extendLease, DB.setJob])
            · exact hchg (setJob_len _ _ _)
            · exact hcm (by simp [failJob_jobs])
            · exact triv
          · exact triv
        · exact triv
      · exact triv
    · exact triv
  | heartbeat now w k =>
    exfalso; revert hj
    simp only [step]; split
    · split
      · split
        · exact triv
        · simp only [Sys.setDb, extendDelete]
          split
          · exact hchg (setJob_len _ _ _)
          · exact triv
      · exact triv
    · exact triv
  | beginDelete now w k =>
    exfalso; revert hj
    simp only [step]; split
    · split
      · split
        · exact triv
        · simp only [Sys.setDb, beginDelete]
          split
          · exact triv
          · split <;> exact triv
      · exact triv
    · exact triv
  | endDelete now w k =>
    exfalso; revert hj
    simp only [step]; split
    · split
      · split
        · exact triv
        · simp only [Sys.setDb, completeDelete]
          split
          · split
            · exact triv
            · next j0 _ =>
              apply hcm
              rw [completeJob_jobs, List.length_modify]
              cases j0.kind <;> cases j0.target <;> rfl
          · exact triv
      · exact triv
    · exact triv
  | fail w k =>
    exfalso; revert hj
    simp only [step]; split
    · simp only [Sys.setDb, failById]
      split
      · exact hcm (by simp [failJob_jobs])
      · exact triv
    · exact triv

end Verif.Tiering
