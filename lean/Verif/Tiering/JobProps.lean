import Verif.Tiering.Props

/-!
# Tiering service: the job queue (C63)
-/
namespace Verif.Tiering

/-! ## C63: jobs -/

theorem job_run (cfg : Cfg) : ∀ (ops : List Op) (s : Sys) (i : Nat) (j : Job), SInv s → s.db.jobs[i]? = some j →
    ∃ j', (run cfg s ops).db.jobs[i]? = some j' ∧ j'.asset = j.asset ∧ j'.kind = j.kind ∧ j'.target = j.target ∧
      j'.createdAt = j.createdAt
  | [], _, _, j, _, hj => ⟨j, hj, rfl, rfl, rfl, rfl⟩
  | o :: os, s, i, j, h, hj => by
    obtain ⟨j1, hj1, hc⟩ := job_step cfg s h o i j hj
    obtain ⟨a1, a2, a3, a4⟩ := hc.keeps
    obtain ⟨j2, hj2, b1, b2, b3, b4⟩ := job_run cfg os _ i j1 (sinv_step cfg s h o) hj1
    exact ⟨j2, hj2, b1.trans a1, b2.trans a2, b3.trans a3, b4.trans a4⟩

/-- C63: a job is never lost, and what it is to do never changes. -/
theorem C63_job_kept (cfg : Cfg) (s : Sys) (h : Reach cfg s) (i : Nat) (j : Job) (hj : s.db.jobs[i]? = some j)
    (ops : List Op) :
    ∃ j', (run cfg s ops).db.jobs[i]? = some j' ∧ j'.asset = j.asset ∧ j'.kind = j.kind ∧ j'.target = j.target ∧
      j'.createdAt = j.createdAt :=
  job_run cfg ops s i j h.inv hj

theorem waiting_terminal {now : Nat} {j : Job} (h : j.claimable now = true) :
    ¬(j.status = .completed ∨ j.status = .failed) := by
  rw [claimable_iff] at h
  rintro (e | e) <;> rcases h with h | ⟨h, _⟩ <;> simp [e] at h

/-- C63: a completed or failed job is final: no step of any client or worker changes its row. -/
theorem C63_terminal_final (cfg : Cfg) (s : Sys) (h : Reach cfg s) (i : Nat) (j : Job)
    (hj : s.db.jobs[i]? = some j) (ht : j.status = .completed ∨ j.status = .failed) (ops : List Op) :
    (run cfg s ops).db.jobs[i]? = some j := by
  have key : ∀ (ops : List Op) (s : Sys), SInv s → s.db.jobs[i]? = some j → (run cfg s ops).db.jobs[i]? = some j := by
    intro ops
    induction ops with
    | nil => intro s _ hj; exact hj
    | cons o os ih =>
      intro s h hj
      obtain ⟨j1, hj1, hc⟩ := job_step cfg s h o i j hj
      refine ih _ (sinv_step cfg s h o) ?_
      rw [hj1]
      cases hc with
      | same => rfl
      | claimed c _ _ _ hcl => exact absurd ht (waiting_terminal hcl)
      | extended _ _ _ _ _ hs _ => rw [hs] at ht; simp at ht
      | triggered _ _ hs _ => rw [hs] at ht; simp at ht
      | completed _ _ hs _ => rw [hs] at ht; simp at ht
      | failed _ _ hs _ => rw [hs] at ht; simp at ht
  exact key ops s h.inv hj

theorem clk_step (cfg : Cfg) (s : Sys) (o : Op) : s.clk ≤ (step cfg s o).clk := by
  cases o with
  | tick n => exact Nat.le_add_right _ _
  | _ => simp only [step]; repeat' split
         all_goals exact Nat.le_refl _

theorem clk_run (cfg : Cfg) : ∀ (ops : List Op) (s : Sys), s.clk ≤ (run cfg s ops).clk
  | [], _ => Nat.le_refl _
  | o :: os, s => Nat.le_trans (clk_step cfg s o) (clk_run cfg os (step cfg s o))

/-- C63: while a worker's lease runs, nobody but that worker changes its job: as long as the clock
has not passed the lease's end, a history without a step of the owner on the job leaves the row as
it is, whatever other workers, clients and claims do. -/
theorem C63_lease_exclusive (cfg : Cfg) (s : Sys) (h : Reach cfg s) (i : Nat) (j : Job) (w : Worker) (e : Nat)
    (hj : s.db.jobs[i]? = some j) (hs : j.status = .processing) (hw : j.owner = some w) (he : j.expAt = some e)
    (ops : List Op) (hops : ∀ o ∈ ops, o.on ≠ some (w, i)) (hclk : (run cfg s ops).clk ≤ e) :
    (run cfg s ops).db.jobs[i]? = some j := by
  have key : ∀ (ops : List Op) (s : Sys), SInv s → s.db.jobs[i]? = some j → (∀ o ∈ ops, o.on ≠ some (w, i)) →
      (run cfg s ops).clk ≤ e → (run cfg s ops).db.jobs[i]? = some j := by
    intro ops
    induction ops with
    | nil => intro s _ hj _ _; exact hj
    | cons o os ih =>
      intro s h hj hn hclk
      obtain ⟨j1, hj1, hc⟩ := job_step cfg s h o i j hj
      refine ih _ (sinv_step cfg s h o) ?_ (fun o ho => hn o (List.mem_cons_of_mem _ ho)) hclk
      rw [hj1]
      have hno : ∀ w', j.owner = some w' → o.on ≠ some (w', i) := by
        intro w' hw'; rw [hw] at hw'; cases hw'; exact hn o (by simp)
      cases hc with
      | same => rfl
      | claimed c _ _ hc hcl =>
        rw [claimable_iff] at hcl
        rcases hcl with hq | ⟨_, e', he', hlt⟩
        · rw [hs] at hq; cases hq
        · rw [he] at he'; cases he'
          have := clk_run cfg (o :: os) s
          omega
      | extended w' _ ho _ _ _ hw' => exact absurd ho (hno w' hw')
      | triggered w' ho _ hw' => exact absurd ho (hno w' hw')
      | completed w' ho _ hw' => exact absurd ho (hno w' hw')
      | failed w' ho _ hw' => exact absurd ho (hno w' hw')
  exact key ops s h.inv hj hops hclk

/-- C63: a worker that has lost its job cannot touch it: a step on a job by a worker that is not
its current owner changes no job. -/
theorem C63_lost_job_untouched (cfg : Cfg) (s : Sys) (h : Reach cfg s) (w : Worker) (i : Nat) (o : Op)
    (ho : o.on = some (w, i))
    (hn : ∀ j, s.db.jobs[i]? = some j → ¬(j.status = .processing ∧ j.owner = some w)) (k : Nat) (j : Job)
    (hk : s.db.jobs[k]? = some j) : (step cfg s o).db.jobs[k]? = some j := by
  obtain ⟨j1, hj1, hc⟩ := job_step cfg s h.inv o k j hk
  rw [hj1]
  have hx : ∀ w', o.on = some (w', k) → j.status = .processing → j.owner = some w' → False := by
    intro w' ho' hs hw
    rw [ho] at ho'; cases ho'
    exact hn j hk ⟨hs, hw⟩
  cases hc with
  | same => rfl
  | claimed c hcl _ _ _ => cases o <;> simp [Op.on] at ho <;> simp [claimOf] at hcl
  | extended w' _ ho' _ _ hs' hw' => exact (hx w' ho' hs' hw').elim
  | triggered w' ho' hs' hw' => exact (hx w' ho' hs' hw').elim
  | completed w' ho' hs' hw' => exact (hx w' ho' hs' hw').elim
  | failed w' ho' hs' hw' => exact (hx w' ho' hs' hw').elim

theorem oldest_le (l : List Job) : ∀ (is : List Nat) (k : Nat), (∀ i ∈ is, ∃ x, l[i]? = some x) →
    oldest l is = some k → ∀ (y : Job), l[k]? = some y → ∀ i ∈ is, ∀ x, l[i]? = some x → y.createdAt ≤ x.createdAt
  | [], _, _, h => by simp [oldest] at h
  | m :: is, k, hb, h => by
    intro y hy i hi x hx
    obtain ⟨z, hz⟩ := hb m (by simp)
    have hb' : ∀ i ∈ is, ∃ x, l[i]? = some x := fun i hi => hb i (by simp [hi])
    unfold oldest at h
    cases ho : oldest l is with
    | none =>
      have hnil : is = [] := by
        cases is with
        | nil => rfl
        | cons p ps =>
          exfalso
          revert ho
          unfold oldest
          cases hop : oldest l ps with
          | none => simp
          | some q =>
            obtain ⟨v, hv⟩ := hb p (by simp)
            simp only [hv]
            repeat' split
            all_goals simp
      subst hnil
      rw [ho] at h
      simp at h; subst h
      simp at hi; subst hi
      rw [hx] at hy; cases hy; exact Nat.le_refl _
    | some q =>
      rw [ho] at h
      have hqm := oldest_mem l is q ho
      obtain ⟨v, hv⟩ := hb' q hqm
      have ihq := oldest_le l is q hb' ho v hv
      simp only [hz, hv] at h
      split at h
      · next hlt =>
        cases h
        rw [hv] at hy; cases hy
        rcases List.mem_cons.1 hi with rfl | hi
        · rw [hz] at hx; cases hx; omega
        · exact ihq i hi x hx
      · next hge =>
        cases h
        rw [hz] at hy; cases hy
        rcases List.mem_cons.1 hi with rfl | hi
        · rw [hz] at hx; cases hx; exact Nat.le_refl _
        · have := ihq i hi x hx; omega

/-- How many jobs with an unfinished lease copy onto backend `b`. -/
def runningOn (d : DB) (b now : Nat) : Nat :=
  d.jobs.countP fun j =>
    decide (j.status = .processing) && j.expAt.any (fun e => decide (now ≤ e)) &&
    j.target.any (fun t => (d.tps[t]?).any fun x => decide (x.backend = b))

theorem runningOn_eq (d : DB) (b now : Nat) : activeCount d b now = runningOn d b now := by
  unfold activeCount runningOn
  apply List.countP_congr
  intro j _
  unfold Job.running DB.backendOf
  cases j.expAt <;> cases j.target with
  | none => simp
  | some t => cases h : d.tps[t]? <;> simp [h]

theorem oldest_none {l : List Job} : ∀ {is : List Nat}, oldest l is = none → is = []
  | [], _ => rfl
  | m :: is, h => by
    exfalso
    revert h
    unfold oldest
    cases oldest l is <;> cases l[m]? <;> simp
    repeat' split
    all_goals simp

theorem claimSelect_eq {cfg : Cfg} {w : Worker} {b : Option Nat} {now : Nat} {locked : List Nat} {d : DB}
    (hcap : ∀ b', b = some b' → activeCount d b' now < cfg.maxActive) :
    claimSelect cfg w b now locked d =
      (oldest d.jobs ((idxs (eligible d b now) d.jobs).filter fun i => !locked.contains i)).map
        fun i => { worker := w, backend := b, job := i, now := now } := by
  unfold claimSelect
  cases b with
  | none => simp
  | some b => simp [hcap b rfl]

theorem commit_same_or {d d' : DB} {l : List Job} (h : d'.jobs = l) :
    commit d d' = d ∨ (commit d d').jobs = l := by
  rcases commit_cases d d' with e | ⟨e, _⟩
  · exact Or.inl e
  · exact Or.inr (by rw [e, h])

/-- C63: a claim takes a job that waits for a worker, on the requested backend, on whose asset no
job is running, that no other claim has locked, and among all such jobs one of the oldest. -/
theorem C63_claim_sound (cfg : Cfg) (w : Worker) (b : Option Nat) (now : Nat) (locked : List Nat) (d : DB) (c : Claim)
    (h : claimSelect cfg w b now locked d = some c) :
    c.job ∉ locked ∧ ∃ j, d.jobs[c.job]? = some j ∧ Waiting now j ∧ JobFor d b j ∧
      (¬ ∃ k ∈ d.jobs, Running now k ∧ k.asset = j.asset) ∧
      (∀ (i : Nat) (x : Job), d.jobs[i]? = some x → i ∉ locked → Waiting now x → JobFor d b x →
        (¬ ∃ k ∈ d.jobs, Running now k ∧ k.asset = x.asset) → j.createdAt ≤ x.createdAt) ∧
      (∀ b', b = some b' → runningOn d b' now < cfg.maxActive) := by
  obtain ⟨_, _, _, hl, ⟨j, hj, he⟩, hcap⟩ := claimSelect_spec h
  rw [eligible_iff] at he
  refine ⟨hl, j, hj, he.1, he.2.1, he.2.2, ?_, fun b' hb => runningOn_eq d b' now ▸ hcap b' hb⟩
  intro i x hx hli hw hf hr
  rw [claimSelect_eq hcap, Option.map_eq_some_iff] at h
  obtain ⟨k, hk, rfl⟩ := h
  refine oldest_le d.jobs _ k ?_ hk j hj i ?_ x hx
  · intro i hi
    rw [List.mem_filter, idxs_mem] at hi
    obtain ⟨⟨x, hx, _⟩, _⟩ := hi
    exact ⟨x, hx⟩
  · rw [List.mem_filter, idxs_mem]
    exact ⟨⟨x, hx, (eligible_iff _ _ _ _).2 ⟨hw, hf, hr⟩⟩, by simpa using hli⟩

/-- C63: no job is overlooked: a worker that finds its backend below the limit gets a job whenever
one is waiting on that backend, not locked and not blocked by a running job on its asset. -/
theorem C63_claim_progress (cfg : Cfg) (w : Worker) (b : Option Nat) (now : Nat) (locked : List Nat) (d : DB)
    (hcap : ∀ b', b = some b' → runningOn d b' now < cfg.maxActive) (i : Nat) (x : Job)
    (hx : d.jobs[i]? = some x) (hl : i ∉ locked) (hw : Waiting now x) (hf : JobFor d b x)
    (hr : ¬ ∃ k ∈ d.jobs, Running now k ∧ k.asset = x.asset) :
    ∃ c, claimSelect cfg w b now locked d = some c := by
  have hm : i ∈ (idxs (eligible d b now) d.jobs).filter fun i => !locked.contains i := by
    rw [List.mem_filter, idxs_mem]
    exact ⟨⟨x, hx, (eligible_iff _ _ _ _).2 ⟨hw, hf, hr⟩⟩, by simpa using hl⟩
  rw [claimSelect_eq fun b' hb => (runningOn_eq d b' now).symm ▸ hcap b' hb]
  cases ho : oldest d.jobs ((idxs (eligible d b now) d.jobs).filter fun i => !locked.contains i) with
  | none => rw [oldest_none ho] at hm; simp at hm
  | some k => exact ⟨_, rfl⟩

/-- C63: a committed claim leaves the job in progress, owned by the claiming worker, with a full
lease, and touches no other job. -/
theorem C63_claim_effect (cfg : Cfg) (s : Sys) (h : Reach cfg s) (k : Nat) (c : Claim) (hc : s.claims[k]? = some c)
    (hch : (step cfg s (.claimCommit k)).db ≠ s.db) :
    (∃ j, (step cfg s (.claimCommit k)).db.jobs[c.job]? = some j ∧ j.status = .processing ∧
      j.owner = some c.worker ∧ j.expAt = some (c.now + cfg.lease)) ∧
    (∀ i, i ≠ c.job → (step cfg s (.claimCommit k)).db.jobs[i]? = s.db.jobs[i]?) := by
  obtain ⟨_, j0, hj0, _, _⟩ := h.inv.clm c (List.mem_of_getElem? hc)
  simp only [step, hc] at hch ⊢
  have hj : (claimCommit cfg c s.db).jobs = s.db.jobs.modify c.job fun j =>
      { j with status := .processing, expAt := some (c.now + cfg.lease), owner := some c.worker } := by
    refine Or.resolve_left ?_ hch
    simp only [claimCommit, hj0]
    refine commit_same_or ?_
    cases j0.kind <;> cases j0.target <;> rfl
  constructor
  · refine ⟨{ j0 with status := .processing, expAt := some (c.now + cfg.lease), owner := some c.worker }, ?_, rfl, rfl, rfl⟩
    rw [hj, modify_job hj0, if_pos rfl]
  · intro i hi
    rw [hj, getElem?_modify_eq]
    cases s.db.jobs[i]? <;> simp [Ne.symm hi]

/-- A copy of asset 0 onto backend 1 is in progress under worker 5, a second copy is queued, and a
claim for the deletion of asset 2 has locked its row. -/
def jobExample : List Op :=
  [.reserve 0 7 0, .reserve 0 8 0, .reserve 0 9 0, .finRead 0, .finWrite 0 0, .finTrigger 0 1 0,
   .finRead 1, .finWrite 0 0, .finTrigger 0 1 0, .delete 0 2, .claim 5 (some 1) 0, .claimSelect 6 none 0]

theorem C63_nonvacuous :
    let s := run cfg0 {} jobExample
    (∃ j, s.db.jobs[0]? = some j ∧ j.status = .processing ∧ j.owner = some 5 ∧ j.expAt = some 10) ∧
    (∃ j, s.db.jobs[1]? = some j ∧ Waiting 0 j ∧ JobFor s.db (some 1) j) ∧
    (∃ c, s.claims[0]? = some c ∧ c.job = 2 ∧ (step cfg0 s (.claimCommit 0)).db ≠ s.db) ∧
    (∃ c, claimSelect cfg0 7 (some 1) 11 s.locked s.db = some c) ∧
    (∃ j, (run cfg0 s [.trigger 5 0 true, .poll 0 5 0 .success]).db.jobs[0]? = some j ∧ j.status = .completed) := by
  refine ⟨⟨_, rfl, rfl, rfl, rfl⟩, ⟨_, rfl, Or.inl rfl, 4, _, rfl, rfl, rfl⟩, ⟨_, rfl, rfl, by decide⟩, ⟨_, rfl⟩, ?_⟩
  exact ⟨_, rfl, rfl⟩

/-- The history of `C63_queue_blocked_fails`. -/
def blockedOps : List Op :=
  [.reserve 0 7 0, .reserve 0 8 0, .finRead 0, .finWrite 0 0, .prefRead 0 1, .prefRead 0 1,
    .prefCheck 0, .prefCheck 1, .prefCommit 0 0, .delete 0 0, .claim 5 none 0, .beginDelete 0 5 1,
    .endDelete 0 5 1, .prefCommit 0 0, .finRead 1, .finWrite 0 1, .finTrigger 0 1 1]

/-- The tables after `blockedOps`. -/
def blockedDb : DB :=
  { assets := [{ path := 7, state := .deleted, finalizedAt := some 0, deletedAt := some 0 },
               { path := 8, state := .stored, finalizedAt := some 0 }]
    tps := [{ asset := 0, backend := 0, state := .deleted },
            { asset := 1, backend := 0, state := .ready, readyAt := some 0 },
            { asset := 0, backend := 1, state := .deleted },
            { asset := 0, backend := 1, expiresAt := some 5 },
            { asset := 1, backend := 1 }]
    jobs := [{ asset := 0, kind := .copy, target := some 2, createdAt := 0 },
             { asset := 0, kind := .delAll, target := none, createdAt := 0, status := .completed },
             { asset := 0, kind := .copy, target := some 3, createdAt := 0 },
             { asset := 1, kind := .copy, target := some 4, createdAt := 0 }] }

theorem blocked_claim (s : Sys) (hd : s.db = blockedDb) (hc : s.claims = []) (w : Worker) (now : Nat) :
    (step cfg0 s (.claim w (some 1) now)).db = blockedDb := by
  have hsel : claimSelect cfg0 w (some 1) now s.locked s.db = some ⟨w, some 1, 0, now⟩ := by
    rw [hd, Sys.locked, hc]; rfl
  simp only [step]
  split
  · rw [hsel, hd]
    dsimp only
    rcases commit_cases blockedDb ((blockedDb.setJob 0 fun j =>
      { j with status := .processing, expAt := some (now + cfg0.lease), owner := some w }).setTp 2
        fun x => { x with state := .inProgress }) with e | ⟨_, e⟩
    · exact e
    · exact absurd (show (blockedDb.setTp 2 fun x => { x with state := .inProgress }).ok = true from e) (by decide)
  · exact hd

/-- C63 (finding): one job can block a backend's queue for ever.  After a Delete overtakes two
concurrent Prefetch calls, the older copy job points at a deleted tier path while a newer tier path
of the same asset and backend is pending: every claim of the older job violates the unique index and
is rolled back, and since it is the oldest, every worker of that backend picks it again, at any
time, while the copy jobs of all other assets wait behind it. -/
theorem C63_queue_blocked_fails : ∃ ops, let s := run cfg0 {} ops
    (∃ j, s.db.jobs[3]? = some j ∧ j.asset = 1 ∧ j.status = .queued ∧ JobFor s.db (some 1) j ∧
      ∀ k ∈ s.db.jobs, k.status ≠ .processing) ∧
    (∀ n w now, (run cfg0 s [.tick n, .claim w (some 1) now]).db = s.db) := by
  have e : (run cfg0 {} blockedOps).db = blockedDb := by decide
  refine ⟨blockedOps, ?_, ?_⟩
  · rw [e]
    exact ⟨_, rfl, rfl, rfl, ⟨4, _, rfl, rfl, rfl⟩, by decide⟩
  · intro n w now
    rw [e]
    exact blocked_claim (step cfg0 (run cfg0 {} blockedOps) (.tick n)) e rfl w now

end Verif.Tiering
