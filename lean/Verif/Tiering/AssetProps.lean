import Verif.Tiering.JobProps

/-!
# Tiering service: readiness, deletion and prefetching (C65, C66, C67)
-/
namespace Verif.Tiering

/-! ## C65: what READY means -/

/-- C65: in every reachable state a tier path is READY exactly when its ready time is set. -/
theorem C65_ready_iff (cfg : Cfg) (s : Sys) (h : Reach cfg s) (t : Nat) (x : TierPath)
    (hx : s.db.tps[t]? = some x) : x.state = .ready ↔ ∃ n, x.readyAt = some n := by
  rw [h.inv.db.rdy t x hx, Option.isSome_iff_exists]

/-- C65: a tier path becomes READY only through a Finalize of its asset that loaded this tier path, or
through a poll with which the current owner of the copy job of this tier path learns that the
transfer has succeeded. -/
theorem C65_becomes_ready (cfg : Cfg) (s : Sys) (h : Reach cfg s) (o : Op) (t : Nat) (x x' : TierPath)
    (hx : s.db.tps[t]? = some x) (hn : x.state ≠ .ready)
    (hx' : (step cfg s o).db.tps[t]? = some x') (hr : x'.state = .ready) :
    (∃ now k r, o = .finWrite now k ∧ s.fins[k]? = some r ∧ r.asset = x.asset ∧ t ∈ r.tps) ∨
    (∃ now w i j, o = .poll now w i .success ∧ s.db.jobs[i]? = some j ∧ j.kind = .copy ∧ j.target = some t ∧
      j.asset = x.asset ∧ j.status = .processing ∧ j.owner = some w ∧ j.hasReq = true) := by
  obtain ⟨x2, hx2, hc⟩ := tp_step cfg s h.inv o t x hx
  rw [hx'] at hx2; cases hx2
  cases hc with
  | same => exact absurd hr hn
  | finalized now k r ho hk hd ht =>
    left
    obtain ⟨⟨y, hy, hya⟩, _⟩ := (h.inv.fin r (List.mem_of_getElem? hk)).2 t ht
    rw [hx] at hy; cases hy
    exact ⟨now, k, r, ho, hk, hya.symm, ht⟩
  | keptAlive _ _ _ _ _ _ _ => exact absurd hr hn
  | claimed _ _ _ _ _ _ _ => simp at hr
  | copied now w i ho j hj hk hs hw hq ht =>
    right
    refine ⟨now, w, i, j, ho, hj, hk, ht, ?_, hs, hw, hq⟩
    rcases h.inv.db.tgt i j hj with ⟨_, e⟩ | ⟨_, t', y, e, hy, hya⟩
    · rw [ht] at e; cases e
    · rw [ht] at e; cases e
      rw [hx] at hy; cases hy
      exact hya.symm
  | failed _ _ _ _ _ _ _ _ => simp at hr
  | deleting _ _ _ _ _ _ _ _ _ => simp at hr
  | deleted _ _ _ _ _ _ _ _ _ _ => simp at hr

theorem ready_step {cfg : Cfg} {s : Sys} (h : SInv s) {o : Op} {t : Nat} {x : TierPath}
    (hn : NeverDeleted s.db x.asset) (hx : s.db.tps[t]? = some x) (hr : x.state = .ready) :
    ∃ x', (step cfg s o).db.tps[t]? = some x' ∧ x'.state = .ready ∧ x'.asset = x.asset ∧ x'.backend = x.backend := by
  obtain ⟨x', hx', hc⟩ := tp_step cfg s h o t x hx
  refine ⟨x', hx', ?_⟩
  have hra : x.readyAt.isSome := (h.db.rdy t x hx).1 hr
  cases hc with
  | same => exact ⟨hr, rfl, rfl⟩
  | finalized _ _ _ _ _ _ _ => exact ⟨rfl, rfl, rfl⟩
  | keptAlive _ _ _ _ _ _ _ => exact ⟨hr, rfl, rfl⟩
  | claimed c _ j hj _ hcl ht =>
    have := h.db.rdyJ t x hx hra _ j hj ht
    rw [claimable_unfinished hcl] at this; cases this
  | copied _ _ _ _ _ _ _ _ _ _ _ => exact ⟨rfl, rfl, rfl⟩
  | failed w i _ j hj hs _ ht =>
    have := h.db.rdyJ t x hx hra _ j hj ht
    rw [(unfinished_iff j).2 (Or.inr hs)] at this; cases this
  | deleting _ _ _ _ j _ hj hk ha => exact absurd hk (hn j (List.mem_of_getElem? hj) ha)
  | deleted _ _ _ _ j hj hk _ _ ha => exact absurd hk (hn j (List.mem_of_getElem? hj) ha)

theorem ready_run {cfg : Cfg} : ∀ (ops : List Op) (s : Sys) (t : Nat) (x : TierPath), SInv s →
    NeverDeleted s.db x.asset → NoDelete ops x.asset → s.db.tps[t]? = some x → x.state = .ready →
    ∃ x', (run cfg s ops).db.tps[t]? = some x' ∧ x'.state = .ready ∧ x'.asset = x.asset ∧ x'.backend = x.backend
  | [], s, t, x, _, _, _, hx, hr => ⟨x, hx, hr, rfl, rfl⟩
  | o :: os, s, t, x, h, hn, hd, hx, hr => by
    obtain ⟨x1, hx1, hr1, ha1, hb1⟩ := ready_step (cfg := cfg) (o := o) h hn hx hr
    obtain ⟨x2, hx2, hr2, ha2, hb2⟩ := ready_run os _ t x1 (sinv_step cfg s h o)
      (ha1 ▸ neverDeleted_step h hn fun now e => hd now (by simp [e]))
      (ha1 ▸ fun now hm => hd now (List.mem_cons_of_mem _ hm)) hx1 hr1
    exact ⟨x2, hx2, hr2, ha2.trans ha1, hb2.trans hb1⟩

/-- C65: a READY tier path stays READY through every history in which nobody deletes its asset:
no stale worker, retry, failure or late poll takes it back. -/
theorem C65_ready_persists (cfg : Cfg) (s : Sys) (h : Reach cfg s) (t : Nat) (x : TierPath)
    (hx : s.db.tps[t]? = some x) (hr : x.state = .ready) (hn : NeverDeleted s.db x.asset) (ops : List Op)
    (hd : NoDelete ops x.asset) :
    ∃ x', (run cfg s ops).db.tps[t]? = some x' ∧ x'.state = .ready ∧ x'.asset = x.asset ∧ x'.backend = x.backend :=
  ready_run ops s t x h.inv hn hd hx hr

/-- Requests in flight have loaded a tier path, and stored assets have a READY one. -/
structure StoredInv (s : Sys) : Prop where
  fin : ∀ r ∈ s.fins, r.tps ≠ []
  st : ∀ (a : Nat) (r : Asset), s.db.assets[a]? = some r → r.state = .stored → NeverDeleted s.db a →
    ∃ (t : Nat) (x : TierPath), s.db.tps[t]? = some x ∧ x.asset = a ∧ x.state = .ready

theorem finalizeRead_spec {a : Nat} {d : DB} {r : FinReq} (h : finalizeRead a d = some r) :
    r.asset = a ∧ r.tps ≠ [] ∧ r.done = false ∧ (∃ x, d.assets[a]? = some x ∧ x.state = .active) ∧
    ∀ (t : Nat), t ∈ r.tps ↔ ∃ x, d.tps[t]? = some x ∧ x.asset = a := by
  unfold finalizeRead at h
  split at h
  · next x hx =>
    split at h
    · next hs =>
      dsimp only at h
      split at h
      · cases h
      · next hne =>
        cases h
        refine ⟨rfl, hne, rfl, ⟨x, hx, hs⟩, fun t => ?_⟩
        rw [idxs_mem]
        simp
    · cases h
  · cases h

theorem fins_step {cfg : Cfg} {s : Sys} {o : Op} (r : FinReq) (h : r ∈ (step cfg s o).fins) :
    (∃ r0 ∈ s.fins, r0.asset = r.asset ∧ r0.tps = r.tps ∧ (r = r0 ∨ r.done = true)) ∨
    (∃ a, o = .finRead a ∧ finalizeRead a s.db = some r) := by
  have triv : r ∈ s.fins → (∃ r0 ∈ s.fins, r0.asset = r.asset ∧ r0.tps = r.tps ∧ (r = r0 ∨ r.done = true)) ∨
      (∃ a, o = .finRead a ∧ finalizeRead a s.db = some r) := fun h => Or.inl ⟨r, h, rfl, rfl, Or.inl rfl⟩
  cases o with
  | finRead a =>
    revert h
    simp only [step]
    split
    · next r0 hr0 =>
      intro hm
      rcases List.mem_append.1 hm with hm | hm
      · exact Or.inl ⟨r, hm, rfl, rfl, Or.inl rfl⟩
      · simp at hm; subst hm; exact Or.inr ⟨a, rfl, hr0⟩
    · exact triv
  | finWrite now k =>
    revert h
    simp only [step]
    repeat' split
    · exact triv
    · rename_i q0 hq0 _ _ _ _
      intro hm
      rcases List.mem_or_eq_of_mem_set hm with hm | rfl
      · exact triv hm
      · exact Or.inl ⟨_, List.mem_of_getElem? hq0, rfl, rfl, Or.inr rfl⟩
    · intro hm; exact triv (mem_eraseIdx_sub hm)
    · exact triv
    · exact triv
  | finTrigger now l1 k =>
    revert h
    simp only [step]
    repeat' split
    · intro hm; exact triv (mem_eraseIdx_sub hm)
    all_goals exact triv
  | _ =>
    revert h
    simp only [step]
    repeat' split
    all_goals exact triv

theorem asset_new (cfg : Cfg) (s : Sys) (o : Op) (a : Nat) (r : Asset)
    (hr : (step cfg s o).db.assets[a]? = some r) (ha : s.db.assets.length ≤ a) : r.state = .active := by
  have hlen : ∀ o, (∀ now p b, o ≠ Op.reserve now p b) →
      (step cfg s o).db.assets.length ≤ s.db.assets.length := by
    intro o ho
    have hcm : ∀ {d' : DB}, d'.assets = s.db.assets → (commit s.db d').assets.length ≤ s.db.assets.length := by
      intro d' e
      rcases commit_cases s.db d' with e' | ⟨e', _⟩ <;> simp [e', e]
    cases o with
    | reserve now p b => exact absurd rfl (ho now p b)
    | keepAlive now k =>
      simp only [step]; split
      · simp [Sys.setDb, reserveKeepAlive, DB.setAsset]
      · exact Nat.le_refl _
    | finWrite now k =>
      simp only [step]; split
      · split
        · next r hr =>
          split
          · exact Nat.le_refl _
          · split
            · next d hd =>
              unfold finalizeWrite tryCommit at hd
              dsimp only at hd
              split at hd
              · cases hd
                dsimp only
                rw [fold_ready_assets]
                simp [DB.setAsset]
              · cases hd
            · exact Nat.le_refl _
        · exact Nat.le_refl _
      · exact Nat.le_refl _
    | finTrigger now l1 k =>
      simp only [step]; (repeat' split) <;> first | exact Nat.le_refl _ | exact hcm rfl
    | prefCommit now k =>
      simp only [step]; (repeat' split) <;> first | exact Nat.le_refl _ | exact hcm rfl
    | prefKeepAlive now k =>
      simp only [step]; split
      · simp only [Sys.setDb, prefetchKeepAlive]
        repeat' split
        all_goals exact Nat.le_refl _
      · exact Nat.le_refl _
    | delete now k =>
      simp only [step]; split
      · simp only [Sys.setDb, queueDelete]
        repeat' split
        all_goals exact Nat.le_refl _
      · exact Nat.le_refl _
    | claim w b now =>
      simp only [step]; (repeat' split) <;> first | exact Nat.le_refl _ | (dsimp only; rw [claimCommit_assets]; exact Nat.le_refl _)
    | claimCommit k =>
      simp only [step]; (repeat' split) <;> first | exact Nat.le_refl _ | (dsimp only; rw [claimCommit_assets]; exact Nat.le_refl _)
    | trigger w k b =>
      simp only [step]; split
      · simp only [Sys.setDb, saveTrigger]
        repeat' split
        · exact Nat.le_refl _
        · exact hcm (failJob_assets _ _)
        · exact Nat.le_refl _
      · exact Nat.le_refl _
    | poll now w k p =>
      simp only [step]; (repeat' split) <;> try exact Nat.le_refl _
      simp only [Sys.setDb, pollCopy]
      split
      · cases p
        · exact hcm (by rw [completeJob_assets]; rfl)
        · exact hcm (by rw [failJob_assets]; rfl)
        · exact Nat.le_refl _
        · exact hcm (failJob_assets _ _)
        · exact Nat.le_refl _
      · exact Nat.le_refl _
    | heartbeat now w k =>
      simp only [step]; (repeat' split) <;> try exact Nat.le_refl _
      simp only [Sys.setDb, extendDelete]
      split <;> exact Nat.le_refl _
    | beginDelete now w k =>
      simp only [step]; (repeat' split) <;> try exact Nat.le_refl _
      simp only [Sys.setDb, beginDelete]
      (repeat' split) <;> simp [DB.setTp, DB.setTpsOf, DB.setAsset]
    | endDelete now w k =>
      simp only [step]; (repeat' split) <;> try exact Nat.le_refl _
      simp only [Sys.setDb, completeDelete]
      (repeat' split) <;> try exact Nat.le_refl _
      all_goals
        rename_i j0 _ _
        have key : ∀ d' : DB, d'.assets.length = s.db.assets.length →
            (commit s.db (completeJob cfg now k d')).assets.length ≤ s.db.assets.length := by
          intro d' e
          rcases commit_cases s.db (completeJob cfg now k d') with e' | ⟨e', _⟩ <;> simp [e', completeJob_assets, e]
        exact key _ (by simp [DB.setTp, DB.setTpsOf, DB.setAsset])
    | fail w k =>
      simp only [step]; (repeat' split) <;> try exact Nat.le_refl _
      simp only [Sys.setDb, failById]
      split
      · exact hcm (failJob_assets _ _)
      · exact Nat.le_refl _
    | _ => simp only [step]; (repeat' split) <;> exact Nat.le_refl _
  have hgt := (List.getElem?_eq_some_iff.1 hr).1
  by_cases ho : ∃ now p b, o = Op.reserve now p b
  · obtain ⟨now, p, b, rfl⟩ := ho
    revert hr
    simp only [step]; split
    · simp only [Sys.setDb, reserve]; split
      · intro hr
        rcases (getElem?_append_one _ _ _ _).1 hr with hr' | ⟨_, rfl⟩
        · have := (List.getElem?_eq_some_iff.1 hr').1; omega
        · rfl
      · intro hr; have : a < s.db.assets.length := (List.getElem?_eq_some_iff.1 hr).1; omega
    · intro hr; have := (List.getElem?_eq_some_iff.1 hr).1; omega
  · have := hlen o fun now p b e => ho ⟨now, p, b, e⟩
    omega

theorem storedInv_step {cfg : Cfg} {s : Sys} (h : SInv s) (hs : StoredInv s) (o : Op) : StoredInv (step cfg s o) := by
  constructor
  · intro r hr
    rcases fins_step r hr with ⟨r0, hr0, _, e, _⟩ | ⟨a, _, hf⟩
    · rw [← e]; exact hs.fin r0 hr0
    · exact (finalizeRead_spec hf).2.1
  · intro a r hr hst hnd
    have hnd0 : NeverDeleted s.db a := by
      intro j hj ha hk
      obtain ⟨i, hi⟩ := mem_getElem? hj
      obtain ⟨j', hj', hc⟩ := job_step cfg s h o i j hi
      obtain ⟨e1, e2, _⟩ := hc.keeps
      exact hnd j' (List.mem_of_getElem? hj') (e1.trans ha) (e2.trans hk)
    have keep : (∃ (t : Nat) (x : TierPath), s.db.tps[t]? = some x ∧ x.asset = a ∧ x.state = .ready) →
        ∃ (t : Nat) (x : TierPath), (step cfg s o).db.tps[t]? = some x ∧ x.asset = a ∧ x.state = .ready := by
      rintro ⟨t, x, hx, rfl, hrd⟩
      obtain ⟨x', hx', hr', ha', _⟩ := ready_step (cfg := cfg) (o := o) h hnd0 hx hrd
      exact ⟨t, x', hx', ha', hr'⟩
    rcases Nat.lt_or_ge a s.db.assets.length with hlt | hge
    · have hr0 := List.getElem?_eq_getElem hlt
      obtain ⟨r', hr', hc⟩ := asset_step cfg s h o a _ hr0
      rw [hr] at hr'; cases hr'
      cases hc with
      | same => exact keep (hs.st a _ hr0 hst hnd0)
      | keptAlive _ _ => exact keep (hs.st a _ hr0 hst hnd0)
      | finalized now k q ho hk hd ha =>
        by_cases hold : (s.db.assets[a]'hlt).state = .stored
        · exact keep (hs.st a _ hr0 hold hnd0)
        obtain ⟨t, ht⟩ := List.exists_mem_of_ne_nil _ (hs.fin q (List.mem_of_getElem? hk))
        obtain ⟨⟨x, hx, hxa⟩, _⟩ := (h.fin q (List.mem_of_getElem? hk)).2 t ht
        subst ho
        have hne : (step cfg s (.finWrite now k)).db.assets[a]? ≠ s.db.assets[a]? := by
          rw [hr, hr0]
          intro e
          have e := Option.some.inj e
          exact hold (by rw [← e])
        revert hne
        simp only [step, hk, hd]
        split
        · simp only [Bool.false_eq_true, if_false]
          split
          · next d hd' =>
            intro _
            unfold finalizeWrite tryCommit at hd'
            dsimp only at hd'
            split at hd'
            · cases hd'
              refine ⟨t, _, fold_ready now q.tps (s.db.setAsset q.asset _) t x hx, ?_, ?_⟩
              · rw [if_pos ht]; exact hxa.trans ha
              · rw [if_pos ht]
            · cases hd'
          · intro hne; exact absurd rfl hne
        · intro hne; exact absurd rfl hne
      | deleting _ _ _ _ _ _ _ _ _ => simp at hst
      | deleted _ _ _ _ _ _ _ _ _ _ => simp at hst
    · rw [asset_new cfg s o a r hr hge] at hst; cases hst

theorem storedInv_run {cfg : Cfg} : ∀ (ops : List Op) (s : Sys), SInv s → StoredInv s → StoredInv (run cfg s ops)
  | [], _, _, hs => hs
  | o :: os, s, h, hs => storedInv_run os _ (sinv_step cfg s h o) (storedInv_step h hs o)

/-- C65: a finalized checkpoint can be read: in every reachable state an asset in STORED that nobody has
asked to delete has a READY tier path. -/
theorem C65_stored_readable (cfg : Cfg) (s : Sys) (h : Reach cfg s) (a : Nat) (r : Asset)
    (hr : s.db.assets[a]? = some r) (hst : r.state = .stored) (hnd : NeverDeleted s.db a) :
    ∃ (t : Nat) (x : TierPath), s.db.tps[t]? = some x ∧ x.asset = a ∧ x.state = .ready := by
  obtain ⟨ops, rfl⟩ := h
  refine (storedInv_run ops {} sinv_init ⟨?_, ?_⟩).st a r hr hst hnd
  · intro r hr; simp at hr
  · intro a r hr; simp at hr

/-- C65: the source of a copy is a READY tier path of the same asset, other than the target, and
one is found whenever there is one. -/
theorem C65_source_ready (cfg : Cfg) (s : Sys) (h : Reach cfg s) (a target : Nat) :
    (∀ k, sourceTp s.db a target = some k → k ≠ target ∧
      ∃ x, s.db.tps[k]? = some x ∧ x.asset = a ∧ x.state = .ready) ∧
    (sourceTp s.db a target = none → ∀ (k : Nat) (x : TierPath), s.db.tps[k]? = some x → x.asset = a →
      x.state = .ready → k = target) := by
  unfold sourceTp
  constructor
  · intro k hk
    have h1 := List.find?_some hk
    have h2 := List.mem_of_find?_eq_some hk
    rw [idxs_mem] at h2
    obtain ⟨x, hx, hp⟩ := h2
    simp only [Bool.and_eq_true, decide_eq_true_iff] at hp
    exact ⟨by simpa using h1, x, hx, hp.1, (h.inv.db.rdy k x hx).2 hp.2⟩
  · intro hn k x hx ha hr
    rw [List.find?_eq_none] at hn
    have := hn k (by
      rw [idxs_mem]
      exact ⟨x, hx, by simp [ha, (h.inv.db.rdy k x hx).1 hr]⟩)
    simpa using this

/-- C65: a tier path is the target of at most one job. -/
theorem C65_one_job_per_path (cfg : Cfg) (s : Sys) (h : Reach cfg s) (i k : Nat) (x y : Job) (t : Nat)
    (hx : s.db.jobs[i]? = some x) (hy : s.db.jobs[k]? = some y) (tx : x.target = some t) (ty : y.target = some t) :
    i = k := h.inv.db.uniq i k x y t hx hy tx ty

theorem C65_nonvacuous :
    let s := run cfg0 {} [.reserve 0 7 0, .finRead 0, .finWrite 0 0, .finTrigger 0 1 0, .claim 5 (some 1) 0,
      .trigger 5 0 true]
    (∃ r, s.db.assets[0]? = some r ∧ r.state = .stored) ∧ NeverDeleted s.db 0 ∧
    sourceTp s.db 0 1 = some 0 ∧
    (∃ x, s.db.tps[1]? = some x ∧ x.state = .inProgress) ∧
    (∃ x, (step cfg0 s (.poll 0 5 0 .success)).db.tps[1]? = some x ∧ x.state = .ready) := by
  refine ⟨⟨_, rfl, rfl⟩, ?_, rfl, ⟨_, rfl, rfl⟩, ⟨_, rfl, rfl⟩⟩
  intro j hj; revert j; decide

/-- C65 (finding): a server that stops between the two transactions of Finalize leaves the checkpoint
stored on the first tier only: no copy has been queued, and since the asset is no longer in
ACTIVE_WRITE a retried Finalize is refused in every later state, so nothing but a Prefetch ever
queues a copy. -/
theorem C65_copy_lost_fails : ∃ ops, let s := run cfg0 {} ops
    (∃ r, s.db.assets[0]? = some r ∧ r.state = .stored) ∧ s.db.jobs = [] ∧
    (∀ more, finalizeRead 0 (run cfg0 s more).db = none) := by
  refine ⟨[.reserve 0 7 0, .finRead 0, .finWrite 0 0], ⟨_, rfl, rfl⟩, rfl, ?_⟩
  have key : ∀ (more : List Op) (s : Sys) (r : Asset), SInv s → s.db.assets[0]? = some r → r.state ≠ .active →
      finalizeRead 0 (run cfg0 s more).db = none := by
    intro more
    induction more with
    | nil => intro s r _ hr hs; simp [run, finalizeRead, hr, hs]
    | cons o os ih =>
      intro s r h hr hs
      obtain ⟨r', hr', hc⟩ := asset_step cfg0 s h o 0 r hr
      refine ih _ r' (sinv_step cfg0 s h o) hr' ?_
      cases hc <;> first | exact hs | simp
  intro more
  exact key more _ _ (sinv_run cfg0 _ {} sinv_init) rfl (by simp)

end Verif.Tiering
