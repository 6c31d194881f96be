import Verif.Tiering.AssetProps

/-!
# Tiering service: deletion and prefetching (C66, C67)
-/
namespace Verif.Tiering

/-! ## C66: deletion -/

/-- C66: Delete succeeds exactly when the asset exists, is not already DELETED and has no deletion
pending; it then queues one deletion job and changes nothing else, and otherwise changes nothing. -/
theorem C66_delete_call (now a : Nat) (d : DB) :
    ((queueDelete now a d).2 = true ↔ (∃ r, d.assets[a]? = some r ∧ r.state ≠ .deleted) ∧ ¬ DeletePending d a) ∧
    ((queueDelete now a d).2 = true → (queueDelete now a d).1 =
      { d with jobs := d.jobs ++ [{ asset := a, kind := .delAll, target := none, createdAt := now, status := .queued }] }) ∧
    ((queueDelete now a d).2 = false → (queueDelete now a d).1 = d) := by
  unfold queueDelete
  cases hr : d.assets[a]? with
  | none => simp
  | some r =>
    dsimp only
    by_cases hs : r.state = .deleted
    · simp [hs]
    · rw [if_neg hs]
      by_cases hp : deletePending d a = true
      · simp only [hp, if_true]
        refine ⟨⟨fun h => (by cases h), fun h => absurd ((deletePending_iff d a).1 hp) h.2⟩, fun h => (by cases h), fun _ => trivial⟩
      · rw [if_neg hp]
        exact ⟨⟨fun _ => ⟨⟨r, rfl, hs⟩, fun h => hp ((deletePending_iff d a).2 h)⟩, fun _ => rfl⟩, fun _ => rfl, fun h => by cases h⟩

/-- C66: while a deletion is pending no new copy of the asset is admitted and no lease on one of its
tier paths is prolonged: the test of Prefetch refuses, and the prefetch keep-alive reports an error
and changes nothing. -/
theorem C66_pending_refuses (cfg : Cfg) (d : DB) (a : Nat) (hp : DeletePending d a) :
    (∀ r : PrefReq, r.asset = a → prefetchCheck r d = none) ∧
    (∀ (now t : Nat) (x : TierPath), d.tps[t]? = some x → x.asset = a →
      (prefetchKeepAlive cfg now t d).1 = d ∧ (prefetchKeepAlive cfg now t d).2 ≠ .ok) := by
  have hp' := (deletePending_iff d a).2 hp
  constructor
  · rintro r rfl
    simp [prefetchCheck, hp']
  · rintro now t x hx rfl
    simp only [prefetchKeepAlive, hx, hp', if_true]
    split <;> simp

/-- C66: at most one deletion of an asset is ever queued or in progress. -/
theorem C66_one_pending (cfg : Cfg) (s : Sys) (h : Reach cfg s) (i k : Nat) (x y : Job)
    (hx : s.db.jobs[i]? = some x) (hy : s.db.jobs[k]? = some y) (kx : x.kind = .delAll) (ky : y.kind = .delAll)
    (ux : x.status = .queued ∨ x.status = .processing) (uy : y.status = .queued ∨ y.status = .processing)
    (he : x.asset = y.asset) : i = k := by
  have key : ∀ (ops : List Op) (s : Sys), SInv s →
      (∀ (i k : Nat) (x y : Job), s.db.jobs[i]? = some x → s.db.jobs[k]? = some y → x.kind = .delAll →
        y.kind = .delAll → (x.status = .queued ∨ x.status = .processing) →
        (y.status = .queued ∨ y.status = .processing) → x.asset = y.asset → i = k) →
      (∀ (i k : Nat) (x y : Job), (run cfg s ops).db.jobs[i]? = some x → (run cfg s ops).db.jobs[k]? = some y →
        x.kind = .delAll → y.kind = .delAll → (x.status = .queued ∨ x.status = .processing) →
        (y.status = .queued ∨ y.status = .processing) → x.asset = y.asset → i = k) := by
    intro ops
    induction ops with
    | nil => intro s _ hu; exact hu
    | cons o os ih =>
      intro s h hu
      refine ih _ (sinv_step cfg s h o) ?_
      have old : ∀ (i : Nat) (x : Job), (step cfg s o).db.jobs[i]? = some x → x.kind = .delAll →
          (x.status = .queued ∨ x.status = .processing) →
          (∃ x0, s.db.jobs[i]? = some x0 ∧ x0.kind = .delAll ∧ (x0.status = .queued ∨ x0.status = .processing) ∧
            x0.asset = x.asset) ∨
          (i = s.db.jobs.length ∧ ¬ DeletePending s.db x.asset) := by
        intro i x hx hk hs
        rcases Nat.lt_or_ge i s.db.jobs.length with hlt | hge
        · left
          have hx0 := List.getElem?_eq_getElem hlt
          obtain ⟨x', hx', hc⟩ := job_step cfg s h o i _ hx0
          rw [hx] at hx'; cases hx'
          obtain ⟨e1, e2, _⟩ := hc.keeps
          refine ⟨_, hx0, e2 ▸ hk, ?_, e1.symm⟩
          cases hc with
          | same => exact hs
          | claimed c _ _ _ hcl => exact (unfinished_iff _).1 (claimable_unfinished hcl)
          | extended _ _ _ _ _ hs' _ => exact Or.inr hs'
          | triggered _ _ hs' _ => exact Or.inr hs'
          | completed _ _ hs' _ => exact Or.inr hs'
          | failed _ _ hs' _ => exact Or.inr hs'
        · right
          obtain ⟨now, rfl⟩ := (job_new cfg s h o i x hx hge).2 hk
          have hc := C66_delete_call now x.asset s.db
          revert hx
          simp only [step]
          split
          · simp only [Sys.setDb]
            cases hq : (queueDelete now x.asset s.db).2 with
            | true =>
              rw [hc.2.1 hq]
              intro hx
              rcases (getElem?_append_one _ _ _ _).1 hx with hx' | ⟨hi, _⟩
              · have := (List.getElem?_eq_some_iff.1 hx').1; omega
              · exact ⟨hi, (hc.1.1 hq).2⟩
            | false =>
              rw [hc.2.2 hq]
              intro hx; have := (List.getElem?_eq_some_iff.1 hx).1; omega
          · intro hx; have := (List.getElem?_eq_some_iff.1 hx).1; omega
      intro i k x y hx hy kx ky ux uy he
      rcases old i x hx kx ux with ⟨x0, hx0, kx0, ux0, ex⟩ | ⟨hi, hn⟩ <;>
        rcases old k y hy ky uy with ⟨y0, hy0, ky0, uy0, ey⟩ | ⟨hk, hn'⟩
      · exact hu i k x0 y0 hx0 hy0 kx0 ky0 ux0 uy0 (by rw [ex, ey, he])
      · exact absurd ⟨x0, List.mem_of_getElem? hx0, ex.trans he, kx0, ux0⟩ hn'
      · exact absurd ⟨y0, List.mem_of_getElem? hy0, ey.trans he.symm, ky0, uy0⟩ hn
      · rw [hi, hk]
  obtain ⟨ops, rfl⟩ := h
  exact key ops {} sinv_init (fun i k x y hx => by simp at hx) i k x y hx hy kx ky ux uy he

/-- C66: when the owner of a deletion job reports that the data is gone, the asset is DELETED, every
tier path of it is DELETED with no ready time and no expiry, the job is COMPLETED, and nothing else
changes. -/
theorem C66_delete_completes (cfg : Cfg) (s : Sys) (h : Reach cfg s) (now : Nat) (w : Worker) (i : Nat) (j : Job)
    (hn : now ≤ s.clk) (hh : (w, i) ∈ s.held) (hl : ∀ c ∈ s.claims, c.job ≠ i) (hj : s.db.jobs[i]? = some j)
    (hk : j.kind = .delAll) (hs : j.status = .processing) (hw : j.owner = some w) :
    let d := (step cfg s (.endDelete now w i)).db
    (∀ r, s.db.assets[j.asset]? = some r →
      d.assets[j.asset]? = some { r with state := .deleted, deletedAt := some now }) ∧
    (∀ (t : Nat) (x : TierPath), s.db.tps[t]? = some x →
      d.tps[t]? = some (if x.asset = j.asset then { x with state := .deleted, readyAt := none, expiresAt := none } else x)) ∧
    d.jobs[i]? = some { j with status := .completed, owner := none, expAt := none } ∧
    (∀ a, a ≠ j.asset → d.assets[a]? = s.db.assets[a]?) ∧ (∀ k, k ≠ i → d.jobs[k]? = s.db.jobs[k]?) := by
  intro d
  have hlk : i ∉ s.locked := by
    unfold Sys.locked
    rw [List.mem_map]
    rintro ⟨c, hc, e⟩; exact hl c hc e
  have hown : owns s.db w i = true := (owns_iff _ _ _).2 ⟨j, hj, hs, hw⟩
  let d1 : DB := (s.db.setAsset j.asset fun r => { r with state := .deleted, deletedAt := some now }).setTpsOf j.asset endTp
  have hd1j : d1.jobs = s.db.jobs := rfl
  have hj1 : d1.jobs[i]? = some j := hj
  have hok : (completeJob cfg now i d1).ok = true := by
    refine ok_mono h.inv.ok ?_ ?_
    · intro a r hr hlv
      rw [completeJob_assets] at hr
      have hr : (s.db.assets.modify j.asset fun r => { r with state := .deleted, deletedAt := some now })[a]? = some r := hr
      rw [getElem?_modify_eq] at hr
      cases h0 : s.db.assets[a]? with
      | none => rw [h0] at hr; simp at hr
      | some r0 =>
        rw [h0] at hr
        simp only [Option.map_some, Option.some.injEq] at hr
        split at hr
        · subst hr; simp [Asset.live] at hlv
        · subst hr; exact ⟨r0, rfl, hlv, rfl⟩
    · intro t x hx hact
      rw [completeJob_tps_del cfg now i d1 j hj1 hk] at hx
      have hx : (s.db.tps.map fun t => if t.asset = j.asset then endTp t else t)[t]? = some x := hx
      rw [List.getElem?_map] at hx
      cases h0 : s.db.tps[t]? with
      | none => rw [h0] at hx; simp at hx
      | some x0 =>
        rw [h0] at hx
        simp only [Option.map_some, Option.some.injEq] at hx
        split at hx
        · subst hx; simp [TierPath.active, endTp] at hact
        · subst hx; exact ⟨x0, rfl, hact, rfl, rfl⟩
  have hd : d = completeJob cfg now i d1 := by
    show (step cfg s (.endDelete now w i)).db = _
    simp only [step]
    rw [if_pos ⟨hn, hh, hlk⟩]
    simp only [hj, hk, reduceCtorEq, if_false, Sys.setDb, completeDelete, hown, if_true]
    show commit s.db (completeJob cfg now i d1) = _
    unfold commit tryCommit
    rw [if_pos hok]; rfl
  rw [hd]
  refine ⟨?_, ?_, ?_, ?_, ?_⟩
  · intro r hr
    rw [completeJob_assets]
    show (s.db.assets.modify j.asset _)[j.asset]? = _
    rw [modify_asset hr, if_pos rfl]
  · intro t x hx
    rw [completeJob_tps_del cfg now i d1 j hj1 hk]
    show (s.db.tps.map fun t => if t.asset = j.asset then endTp t else t)[t]? = _
    rw [List.getElem?_map, hx]; rfl
  · rw [completeJob_jobs, modify_job hj1, if_pos rfl]
  · intro a ha
    rw [completeJob_assets]
    show (s.db.assets.modify j.asset _)[a]? = _
    rw [getElem?_modify_eq]
    cases s.db.assets[a]? <;> simp [Ne.symm ha]
  · intro k hk'
    rw [completeJob_jobs, getElem?_modify_eq, hd1j]
    cases s.db.jobs[k]? <;> simp [Ne.symm hk']

theorem deleted_run {cfg : Cfg} {a : Nat} : ∀ (ops : List Op) (s : Sys) (r : Asset), SInv s →
    (∀ q ∈ s.fins, q.asset = a → q.done = true) → s.db.assets[a]? = some r → r.state = .deleted →
    ∃ r', (run cfg s ops).db.assets[a]? = some r' ∧ r'.state = .deleted ∧
      (∀ q ∈ (run cfg s ops).fins, q.asset = a → q.done = true)
  | [], s, r, _, hf, hr, hs => ⟨r, hr, hs, hf⟩
  | o :: os, s, r, h, hf, hr, hs => by
    obtain ⟨r1, hr1, hc⟩ := asset_step cfg s h o a r hr
    have hs1 : r1.state = .deleted := by
      cases hc with
      | same => exact hs
      | keptAlive _ _ => exact hs
      | finalized _ k q _ hk hd ha =>
        have := hf q (List.mem_of_getElem? hk) ha
        rw [hd] at this; cases this
      | deleting _ _ _ _ _ _ _ _ _ => rfl
      | deleted _ _ _ _ _ _ _ _ _ _ => rfl
    have hf1 : ∀ q ∈ (step cfg s o).fins, q.asset = a → q.done = true := by
      intro q hq ha
      rcases fins_step q hq with ⟨q0, hq0, e1, _, e | e⟩ | ⟨a', _, hfr⟩
      · subst e; exact hf q hq0 ha
      · exact e
      · obtain ⟨e1, _, _, ⟨x, hx, hxs⟩, _⟩ := finalizeRead_spec hfr
        rw [← e1, ha, hr] at hx; cases hx
        rw [hs] at hxs; cases hxs
    exact deleted_run os _ r1 (sinv_step cfg s h o) hf1 hr1 hs1

/-- C66: a DELETED asset stays DELETED through every history, provided no Finalize of it was already
past its reads when it was deleted. -/
theorem C66_deleted_final_partial (cfg : Cfg) (s : Sys) (h : Reach cfg s) (a : Nat) (r : Asset)
    (hr : s.db.assets[a]? = some r) (hs : r.state = .deleted) (hf : ∀ q ∈ s.fins, q.asset = a → q.done = true)
    (ops : List Op) : ∃ r', (run cfg s ops).db.assets[a]? = some r' ∧ r'.state = .deleted := by
  obtain ⟨r', hr', hs', _⟩ := deleted_run (cfg := cfg) ops s r h.inv hf hr hs
  exact ⟨r', hr', hs'⟩

/-- Reserve, finalize, copy to a second tier and delete, completely. -/
def deleteExample : List Op :=
  [.reserve 0 7 0, .finRead 0, .finWrite 0 0, .finTrigger 0 1 0, .claim 5 (some 1) 0, .trigger 5 0 true,
   .poll 0 5 0 .success, .delete 0 0, .claim 6 none 0, .beginDelete 0 6 1]

theorem C66_nonvacuous :
    let s := run cfg0 {} deleteExample
    (∃ j, s.db.jobs[1]? = some j ∧ j.kind = .delAll ∧ j.status = .processing ∧ j.owner = some 6) ∧
    (6, 1) ∈ s.held ∧ (∀ c ∈ s.claims, c.job ≠ 1) ∧ DeletePending s.db 0 ∧
    (∃ r, s.db.assets[0]? = some r ∧ r.state = .deleted) ∧ s.fins = [] ∧
    (∃ x, s.db.tps[1]? = some x ∧ x.state = .deleting) ∧
    (queueDelete 0 0 (run cfg0 {} (deleteExample.take 7)).db).2 = true := by
  refine ⟨⟨_, rfl, rfl, rfl, rfl⟩, by decide, by decide, ?_, ⟨_, rfl, rfl⟩, rfl, ⟨_, rfl, rfl⟩, by decide⟩
  exact (deletePending_iff _ _).1 (by decide)

/-- C66 (finding): a Finalize that has read the asset before a deletion and writes after it brings the
asset back: its session still holds the old row, so the test for ACTIVE_WRITE passes, and an asset
whose data has been removed is STORED with a READY tier path. -/
theorem C66_finalize_resurrects_fails : ∃ ops o, let s := run cfg0 {} ops
    (∃ r x, s.db.assets[0]? = some r ∧ r.state = .deleted ∧ s.db.tps[0]? = some x ∧ x.state = .deleted) ∧
    (∃ r x, (step cfg0 s o).db.assets[0]? = some r ∧ r.state = .stored ∧
      (step cfg0 s o).db.tps[0]? = some x ∧ x.state = .ready) :=
  ⟨[.reserve 0 7 0, .finRead 0, .delete 0 0, .claim 5 none 0, .beginDelete 0 5 0, .endDelete 0 5 0], .finWrite 0 0,
    ⟨_, _, rfl, rfl, rfl, rfl⟩, ⟨_, _, rfl, rfl, rfl, rfl⟩⟩

/-- The state of an asset whose deletion has failed half-way. -/
structure HalfDeleted (s : Sys) (a t : Nat) : Prop where
  ast : ∃ r, s.db.assets[a]? = some r ∧ r.state = .deleted
  fin : ∀ q ∈ s.fins, q.asset = a → q.done = true
  jobs : ∀ j ∈ s.db.jobs, j.asset = a → j.kind = .delAll → j.status = .completed ∨ j.status = .failed
  tp : ∃ x, s.db.tps[t]? = some x ∧ x.asset = a ∧ x.state ≠ .deleted

theorem halfDeleted_of {s : Sys} {a t : Nat} {d : DB} (e : s.db = d) (hf : s.fins.all (fun q => q.done) = true)
    (h1 : (d.assets[a]?.map Asset.state) = some .deleted)
    (h2 : d.jobs.all (fun j => j.status = .completed || j.status = .failed) = true)
    (h3 : (d.tps[t]?.map TierPath.asset) = some a) (h4 : (d.tps[t]?.map TierPath.state) ≠ some .deleted) :
    HalfDeleted s a t := by
  subst e
  refine ⟨?_, ?_, ?_, ?_⟩
  · cases h : s.db.assets[a]? with
    | none => rw [h] at h1; simp at h1
    | some r => rw [h] at h1; exact ⟨r, rfl, by simpa using h1⟩
  · intro q hq _; exact List.all_eq_true.1 hf q hq
  · intro j hj _ _; simpa using List.all_eq_true.1 h2 j hj
  · cases h : s.db.tps[t]? with
    | none => rw [h] at h3; simp at h3
    | some x => rw [h] at h3 h4; exact ⟨x, rfl, by simpa using h3, by simpa using h4⟩

theorem halfDeleted_step {cfg : Cfg} {s : Sys} (h : SInv s) {a t : Nat} (hd : HalfDeleted s a t) (o : Op) :
    HalfDeleted (step cfg s o) a t := by
  obtain ⟨r, hr, hs⟩ := hd.ast
  obtain ⟨r', hr', hs', hf'⟩ := deleted_run (cfg := cfg) [o] s r h hd.fin hr hs
  refine ⟨⟨r', hr', hs'⟩, hf', ?_, ?_⟩
  · intro j hj ha hk
    obtain ⟨i, hi⟩ := mem_getElem? hj
    rcases Nat.lt_or_ge i s.db.jobs.length with hlt | hge
    · have h0 := List.getElem?_eq_getElem hlt
      obtain ⟨j', hj', hc⟩ := job_step cfg s h o i _ h0
      rw [hi] at hj'; cases hj'
      obtain ⟨e1, e2, _⟩ := hc.keeps
      have ht := hd.jobs _ (List.mem_of_getElem? h0) (e1 ▸ ha) (e2 ▸ hk)
      cases hc with
      | same => exact ht
      | claimed c _ _ _ hcl => exact absurd ht (waiting_terminal hcl)
      | extended _ _ _ _ _ hs _ => rw [hs] at ht; simp at ht
      | triggered _ _ hs _ => rw [hs] at ht; simp at ht
      | completed _ _ hs _ => exact Or.inl rfl
      | failed _ _ hs _ => exact Or.inr rfl
    · obtain ⟨now, rfl⟩ := (job_new cfg s h o i j hi hge).2 hk
      have hc := C66_delete_call now j.asset s.db
      have hq : (queueDelete now j.asset s.db).2 = false := by
        cases hq : (queueDelete now j.asset s.db).2 with
        | false => rfl
        | true =>
          obtain ⟨⟨r2, hr2, hs2⟩, _⟩ := hc.1.1 hq
          rw [ha, hr] at hr2; cases hr2
          exact absurd hs hs2
      exfalso
      revert hi
      simp only [step]
      split
      · simp only [Sys.setDb]
        rw [hc.2.2 hq]
        intro hi; have := (List.getElem?_eq_some_iff.1 hi).1; omega
      · intro hi; have := (List.getElem?_eq_some_iff.1 hi).1; omega
  · obtain ⟨x, hx, hxa, hxs⟩ := hd.tp
    obtain ⟨x', hx', hc⟩ := tp_step cfg s h o t x hx
    refine ⟨x', hx', ?_, ?_⟩
    · cases hc <;> exact hxa
    · cases hc with
      | same => exact hxs
      | keptAlive _ _ _ _ _ _ _ => exact hxs
      | deleted _ _ _ _ j hj hk hs _ ha =>
        have := hd.jobs j (List.mem_of_getElem? hj) (ha.trans hxa) hk
        rw [hs] at this; simp at this
      | _ => simp

theorem halfDeleted_run {cfg : Cfg} {a t : Nat} : ∀ (ops : List Op) (s : Sys), SInv s → HalfDeleted s a t →
    HalfDeleted (run cfg s ops) a t
  | [], _, _, h => h
  | o :: os, s, hs, h => halfDeleted_run os _ (sinv_step cfg s hs o) (halfDeleted_step hs h o)

/-- Reserve, finalize, delete; the removal of the data fails. -/
def failedDelete : List Op :=
  [.reserve 0 7 0, .finRead 0, .finWrite 0 0, .delete 0 0, .claim 5 none 0, .beginDelete 0 5 0, .fail 5 0]

/-- A worker loses the lease on a deletion that another worker then completes. -/
def staleDelete : List Op :=
  [.reserve 0 7 0, .finRead 0, .finWrite 0 0, .delete 0 0, .claim 5 none 0, .tick 11,
    .claim 6 none 11, .beginDelete 11 6 0, .endDelete 11 6 0]

/-- C66 (finding): a deletion that fails once can never be completed.  The asset is marked DELETED before
the data is removed; if the removal then fails, the job is FAILED, and in every later history every
Delete of the asset is refused as not found and its tier path never becomes DELETED: the data that
was not removed stays. -/
theorem C66_failed_delete_stuck_fails : ∃ ops, let s := run cfg0 {} ops
    (∃ x, s.db.tps[0]? = some x ∧ x.state = .deleting) ∧
    ∀ more, let s' := run cfg0 s more
      (∀ now, (queueDelete now 0 s'.db).2 = false) ∧ (∃ x, s'.db.tps[0]? = some x ∧ x.state ≠ .deleted) := by
  have hh : HalfDeleted (run cfg0 {} failedDelete) 0 0 := 
    halfDeleted_of rfl (by decide) (by decide) (by decide) (by decide) (by decide)
  refine ⟨failedDelete, ⟨_, rfl, rfl⟩, fun more => ?_⟩
  have hr := halfDeleted_run (cfg := cfg0) more _ (sinv_run cfg0 failedDelete {} sinv_init) hh
  refine ⟨fun now => ?_, ?_⟩
  · obtain ⟨r, hr1, hs⟩ := hr.ast
    simp [queueDelete, hr1, hs]
  · obtain ⟨x, hx, _, hs⟩ := hr.tp
    exact ⟨x, hx, hs⟩

/-- C66 (finding): the step that marks an asset as being deleted does not test whether the worker still
owns the job: a worker that lost its lease moves the tier paths of a completely deleted asset back
to DELETE_IN_PROCESS, where they stay for ever. -/
theorem C66_stale_begin_fails : ∃ ops o, let s := run cfg0 {} ops
    (∃ x, s.db.tps[0]? = some x ∧ x.state = .deleted) ∧
    (∃ j, s.db.jobs[0]? = some j ∧ j.status = .completed) ∧
    (∀ more, ∃ x, (run cfg0 (step cfg0 s o) more).db.tps[0]? = some x ∧ x.state ≠ .deleted) := by
  have hh : HalfDeleted (run cfg0 {} (staleDelete ++ [.beginDelete 11 5 0])) 0 0 := 
    halfDeleted_of rfl (by decide) (by decide) (by decide) (by decide) (by decide)
  refine ⟨staleDelete, .beginDelete 11 5 0, ⟨_, rfl, rfl⟩, ⟨_, rfl, rfl⟩, fun more => ?_⟩
  have hr := halfDeleted_run (cfg := cfg0) more _ (sinv_run cfg0 _ {} sinv_init) hh
  obtain ⟨x, hx, _, hs⟩ := hr.tp
  rw [run_append] at hx
  exact ⟨x, hx, hs⟩

/-- C66 (finding): a copy whose lease ended but whose worker goes on polling completes after the asset has
been deleted: the DELETED asset has a READY tier path. -/
theorem C66_late_copy_fails : ∃ ops, let s := run cfg0 {} ops
    (∃ r x, s.db.assets[0]? = some r ∧ r.state = .deleted ∧ s.db.tps[1]? = some x ∧ x.asset = 0 ∧ x.state = .ready) ∧
    (∃ j, s.db.jobs[1]? = some j ∧ j.kind = .delAll ∧ j.status = .completed) :=
  ⟨[.reserve 0 7 0, .finRead 0, .finWrite 0 0, .finTrigger 0 1 0, .claim 5 (some 1) 0, .trigger 5 0 true,
    .delete 0 0, .tick 11, .claim 6 none 11, .beginDelete 11 6 1, .endDelete 11 6 1, .poll 11 5 0 .success],
    ⟨_, _, rfl, rfl, rfl, rfl, rfl⟩, ⟨_, rfl, rfl, rfl⟩⟩

/-- C66 (finding): a copy that was queued when its asset was deleted is still carried out: a worker claims
it and the DELETED tier path is IN_PROGRESS again. -/
theorem C66_queued_copy_fails : ∃ ops o, let s := run cfg0 {} ops
    (∃ r x, s.db.assets[0]? = some r ∧ r.state = .deleted ∧ s.db.tps[1]? = some x ∧ x.state = .deleted) ∧
    (∃ x, (step cfg0 s o).db.tps[1]? = some x ∧ x.state = .inProgress) :=
  ⟨[.reserve 0 7 0, .finRead 0, .finWrite 0 0, .finTrigger 0 1 0, .delete 0 0, .claim 6 none 0, .beginDelete 0 6 1,
    .endDelete 0 6 1], .claim 5 (some 1) 0, ⟨_, _, rfl, rfl, rfl, rfl⟩, ⟨_, rfl, rfl⟩⟩

/-! ## C67: prefetching -/

/-- C67: in every reachable state an asset has at most one tier path in PENDING, IN_PROGRESS or READY
on a backend. -/
theorem C67_one_active_per_backend (cfg : Cfg) (s : Sys) (h : Reach cfg s) (t u : Nat) (x y : TierPath)
    (hx : s.db.tps[t]? = some x) (hy : s.db.tps[u]? = some y) (ax : Active x) (ay : Active y)
    (ha : x.asset = y.asset) (hb : x.backend = y.backend) : t = u :=
  ((ok_iff _).1 h.inv.ok).2 t u x y hx hy ((active_iff _).2 ax) ((active_iff _).2 ay) ha hb

theorem head?_mem {l : List Nat} {x : Nat} (h : l.head? = some x) : x ∈ l := by
  cases l <;> simp at h; simp [h]

/-- C67: Prefetch of an asset that is not STORED is refused; if the asset has an active tier path on the
backend that tier path is returned and nothing is created; otherwise a request to create one goes
on. -/
theorem C67_prefetch_read (cfg : Cfg) (s : Sys) (h : Reach cfg s) (a b : Nat) :
    (prefetchRead a b s.db = none ↔ ¬ ∃ r, s.db.assets[a]? = some r ∧ r.state = .stored) ∧
    (∀ t, prefetchRead a b s.db = some (.inr t) ↔ (∃ r, s.db.assets[a]? = some r ∧ r.state = .stored) ∧
      ∃ x, s.db.tps[t]? = some x ∧ x.asset = a ∧ x.backend = b ∧ Active x) := by
  have hm : ∀ t : Nat, t ∈ idxs (fun t => decide (t.asset = a) && t.active && decide (t.backend = b)) s.db.tps ↔
      ∃ x, s.db.tps[t]? = some x ∧ x.asset = a ∧ x.backend = b ∧ Active x := by
    intro t
    rw [idxs_mem]
    constructor
    · rintro ⟨x, hx, hp⟩
      simp only [Bool.and_eq_true, decide_eq_true_iff, active_iff] at hp
      exact ⟨x, hx, hp.1.1, hp.2, hp.1.2⟩
    · rintro ⟨x, hx, h1, h2, h3⟩
      exact ⟨x, hx, by simp only [Bool.and_eq_true, decide_eq_true_iff, active_iff]; exact ⟨⟨h1, h3⟩, h2⟩⟩
  unfold prefetchRead
  cases hr : s.db.assets[a]? with
  | none => simp
  | some r =>
    dsimp only
    by_cases hs : r.state = .stored
    · rw [if_pos hs]
      cases hh : (idxs (fun t => decide (t.asset = a) && t.active && decide (t.backend = b)) s.db.tps).head? with
      | none =>
        have hnil : idxs (fun t => decide (t.asset = a) && t.active && decide (t.backend = b)) s.db.tps = [] := by
          cases hl : idxs (fun t => decide (t.asset = a) && t.active && decide (t.backend = b)) s.db.tps with
          | nil => rfl
          | cons p ps => rw [hl] at hh; simp at hh
        refine ⟨⟨fun h => (by cases h), fun h => absurd ⟨r, rfl, hs⟩ h⟩, fun t => ⟨fun h => (by cases h), ?_⟩⟩
        rintro ⟨_, hx⟩
        have := (hm t).2 hx
        rw [hnil] at this; simp at this
      | some u =>
        have hu := (hm u).1 (head?_mem hh)
        refine ⟨⟨fun h => (by cases h), fun h => absurd ⟨r, rfl, hs⟩ h⟩, fun t => ⟨fun he => ?_, ?_⟩⟩
        · cases he; exact ⟨⟨r, rfl, hs⟩, hu⟩
        · rintro ⟨_, x, hx, h1, h2, h3⟩
          obtain ⟨y, hy, g1, g2, g3⟩ := hu
          rw [C67_one_active_per_backend cfg s h t u x y hx hy h3 g3 (h1.trans g1.symm) (h2.trans g2.symm)]
    · rw [if_neg hs]
      have : ¬ ∃ r', some r = some r' ∧ r'.state = .stored := by rintro ⟨r', e, h⟩; cases e; exact hs h
      exact ⟨⟨fun _ => this, fun _ => rfl⟩, fun t => ⟨fun h => (by cases h), fun h => absurd h.1 this⟩⟩

/-- C67: the transaction of a Prefetch creates one pending tier path, that expires one keep-alive
period later, with one queued copy job onto it, unless the asset meanwhile has an active tier path
on the backend; then it changes nothing. -/
theorem C67_prefetch_commit (cfg : Cfg) (s : Sys) (h : Reach cfg s) (now : Nat) (r : PrefReq) :
    ((¬ ∃ (t : Nat) (x : TierPath), s.db.tps[t]? = some x ∧ x.asset = r.asset ∧ x.backend = r.backend ∧ Active x) →
      prefetchCommit cfg now r s.db = { s.db with
        tps := s.db.tps ++ [{ asset := r.asset, backend := r.backend, state := .pending,
                              expiresAt := some (now + cfg.keepAlive) }]
        jobs := s.db.jobs ++ [{ asset := r.asset, kind := .copy, target := some s.db.tps.length, createdAt := now,
                                status := .queued }] }) ∧
    ((∃ (t : Nat) (x : TierPath), s.db.tps[t]? = some x ∧ x.asset = r.asset ∧ x.backend = r.backend ∧ Active x) →
      prefetchCommit cfg now r s.db = s.db) := by
  have hok := (ok_iff _).1 h.inv.ok
  constructor
  · intro hn
    simp only [prefetchCommit, commit, tryCommit]
    rw [if_pos]
    · rfl
    rw [ok_iff]
    refine ⟨hok.1, ?_⟩
    intro i k x y hx hy lx ly e1 e2
    rcases (getElem?_append_one _ _ _ _).1 hx with hx' | ⟨rfl, rfl⟩ <;>
      rcases (getElem?_append_one _ _ _ _).1 hy with hy' | ⟨rfl, rfl⟩
    · exact hok.2 i k x y hx' hy' lx ly e1 e2
    · exact absurd ⟨i, x, hx', e1, e2, (active_iff _).1 lx⟩ hn
    · exact absurd ⟨k, y, hy', e1.symm, e2.symm, (active_iff _).1 ly⟩ hn
    · rfl
  · rintro ⟨t, x, hx, h1, h2, h3⟩
    simp only [prefetchCommit, commit, tryCommit]
    rw [if_neg]
    · rfl
    intro ho
    have := ((ok_iff _).1 ho).2 t s.db.tps.length x
      { asset := r.asset, backend := r.backend, expiresAt := some (now + cfg.keepAlive) }
      (getElem?_append_old hx _) ((getElem?_append_one _ _ _ _).2 (Or.inr ⟨rfl, rfl⟩)) ((active_iff _).2 h3) rfl h1 h2
    have := (List.getElem?_eq_some_iff.1 hx).1
    omega

/-- C67: a prefetch keep-alive never shortens a lease and changes only that lease; when it succeeds and
the tier path has an expiry, the tier path expires no earlier than one keep-alive period from now. -/
theorem C67_keep_alive (cfg : Cfg) (now t : Nat) (d : DB) :
    let r := prefetchKeepAlive cfg now t d
    r.1.assets = d.assets ∧ r.1.jobs = d.jobs ∧
    (∀ (u : Nat) (x : TierPath), d.tps[u]? = some x →
      ∃ x', r.1.tps[u]? = some x' ∧ x' = { x with expiresAt := x'.expiresAt } ∧
        (∀ e, x.expiresAt = some e → ∃ e', x'.expiresAt = some e' ∧ e ≤ e') ∧
        (u ≠ t → x' = x)) ∧
    (r.2 = .ok → ∃ x, r.1.tps[t]? = some x ∧ x.state ≠ .failed ∧
      ∀ e, x.expiresAt = some e → now + cfg.keepAlive ≤ e) := by
  intro r
  have same : ∀ {k : KeepAlive}, r = (d, k) → (k = .ok → ∃ x, d.tps[t]? = some x ∧ x.state ≠ .failed ∧
      ∀ e, x.expiresAt = some e → now + cfg.keepAlive ≤ e) → r.1.assets = d.assets ∧ r.1.jobs = d.jobs ∧
    (∀ (u : Nat) (x : TierPath), d.tps[u]? = some x →
      ∃ x', r.1.tps[u]? = some x' ∧ x' = { x with expiresAt := x'.expiresAt } ∧
        (∀ e, x.expiresAt = some e → ∃ e', x'.expiresAt = some e' ∧ e ≤ e') ∧
        (u ≠ t → x' = x)) ∧
    (r.2 = .ok → ∃ x, r.1.tps[t]? = some x ∧ x.state ≠ .failed ∧
      ∀ e, x.expiresAt = some e → now + cfg.keepAlive ≤ e) := by
    intro k hk hx
    rw [hk]
    exact ⟨rfl, rfl, fun u x hx => ⟨x, hx, rfl, fun e he => ⟨e, he, Nat.le_refl _⟩, fun _ => rfl⟩, hx⟩
  have hdef : r = prefetchKeepAlive cfg now t d := rfl
  unfold prefetchKeepAlive at hdef
  cases hx : d.tps[t]? with
  | none => rw [hx] at hdef; exact same hdef (fun h => by cases h)
  | some x =>
    rw [hx] at hdef
    dsimp only at hdef
    split at hdef
    · exact same hdef (fun h => by cases h)
    · next hf =>
      split at hdef
      · exact same hdef (fun h => by cases h)
      · split at hdef
        · exact same hdef (fun h => by cases h)
        · split at hdef
          · next he => exact same hdef fun _ => ⟨x, hx, hf, fun e he' => by rw [he] at he'; cases he'⟩
          · next e he =>
            split at hdef
            · next hlt =>
              rw [hdef]
              refine ⟨rfl, rfl, ?_, ?_⟩
              · intro u y hy
                show ∃ x', (d.tps.modify t _)[u]? = some x' ∧ _
                rw [modify_tp hy]
                by_cases hu : t = u
                · subst hu
                  rw [hx] at hy; cases hy
                  rw [if_pos rfl]
                  exact ⟨_, rfl, rfl, fun e' he' => ⟨_, rfl, by rw [he] at he'; cases he'; omega⟩, fun h => absurd rfl h⟩
                · rw [if_neg hu]
                  exact ⟨y, rfl, rfl, fun e he => ⟨e, he, Nat.le_refl _⟩, fun _ => rfl⟩
              · intro _
                show ∃ x', (d.tps.modify t _)[t]? = some x' ∧ _
                rw [modify_tp hx, if_pos rfl]
                exact ⟨_, rfl, hf, fun e' he' => by cases he'; exact Nat.le_refl _⟩
            · next hge =>
              exact same hdef fun _ => ⟨x, hx, hf, fun e' he' => by rw [he] at he'; cases he'; omega⟩

theorem C67_nonvacuous :
    let s := run cfg0 {} [.reserve 0 7 0, .finRead 0, .finWrite 0 0, .prefRead 0 1, .prefCheck 0, .prefCommit 0 0, .tick 3]
    prefetchRead 0 1 s.db = some (.inr 1) ∧ prefetchRead 0 2 s.db = some (.inl { asset := 0, backend := 2 }) ∧
    (prefetchKeepAlive cfg0 3 1 s.db).2 = .ok ∧
    (∃ x, (prefetchKeepAlive cfg0 3 1 s.db).1.tps[1]? = some x ∧ x.expiresAt = some 8) ∧
    prefetchCommit cfg0 3 { asset := 0, backend := 2 } s.db ≠ s.db ∧
    prefetchCommit cfg0 3 { asset := 0, backend := 1 } s.db = s.db := by
  refine ⟨rfl, rfl, rfl, ⟨_, rfl, rfl⟩, by decide, by decide⟩

/-- C67 (finding): the completion of a copy can take away what keep-alives have been promised.  On a
Lustre backend it sets a fixed lifetime counted from the completion, also when the lease that the
client has been given by its keep-alives ends later (here with a keep-alive period longer than that
lifetime). -/
theorem C67_completion_shortens_fails : ∃ cfg ops o, let s := run cfg {} ops
    (∃ x e, s.db.tps[1]? = some x ∧ x.expiresAt = some e ∧
      ∃ x' e', (step cfg s o).db.tps[1]? = some x' ∧ x'.state = .ready ∧ x'.expiresAt = some e' ∧ e' < e) :=
  ⟨{ lease := 10, keepAlive := 100, maxActive := 1, lustre := fun b => b == 1, lustreTtl := 60 },
    [.reserve 0 7 0, .finRead 0, .finWrite 0 0, .prefRead 0 1, .prefCheck 0, .prefCommit 0 0, .claim 5 (some 1) 0,
     .trigger 5 0 true], .poll 0 5 0 .success, _, _, rfl, rfl, _, _, rfl, rfl, rfl, by decide⟩

/-- C67 (finding): the test for a pending deletion and the insert of a Prefetch are not one
transaction: a Delete between the two is overtaken, and a copy is queued for an asset whose deletion
is pending. -/
theorem C67_prefetch_during_delete_fails : ∃ ops o, let s := run cfg0 {} ops
    DeletePending s.db 0 ∧ s.db.jobs.length = 1 ∧
    (∃ j, (step cfg0 s o).db.jobs[1]? = some j ∧ j.asset = 0 ∧ j.kind = .copy ∧ j.status = .queued) :=
  ⟨[.reserve 0 7 0, .finRead 0, .finWrite 0 0, .prefRead 0 1, .prefCheck 0, .delete 0 0], .prefCommit 0 0,
    (deletePending_iff _ _).1 (by decide), by decide, ⟨_, rfl, rfl, rfl, rfl⟩⟩

end Verif.Tiering
