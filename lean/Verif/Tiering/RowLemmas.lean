import Verif.Tiering.JobLemmas

/-!
# Tiering service: how one step may change one tier path or one asset
-/
namespace Verif.Tiering

/-- How the row `x` of tier path `t` may look after step `o` in state `s`. -/
inductive TpChange (cfg : Cfg) (s : Sys) (o : Op) (t : Nat) (x : TierPath) : TierPath → Prop
  | same : TpChange cfg s o t x x
  | finalized (now k : Nat) (r : FinReq) (ho : o = .finWrite now k) (hr : s.fins[k]? = some r)
      (hd : r.done = false) (ht : t ∈ r.tps) :
      TpChange cfg s o t x { x with state := .ready, readyAt := some now }
  | keptAlive (now e : Nat) (ho : o = .prefKeepAlive now t) (he : x.expiresAt = some e)
      (hl : e < now + cfg.keepAlive) (hp : deletePending s.db x.asset = false)
      (hs : x.state ≠ .failed) :
      TpChange cfg s o t x { x with expiresAt := some (now + cfg.keepAlive) }
  | claimed (c : Claim) (hc : claimOf cfg s o = some c) (j : Job) (hj : s.db.jobs[c.job]? = some j)
      (hk : j.kind = .copy) (hcl : j.claimable c.now = true) (ht : j.target = some t) :
      TpChange cfg s o t x { x with state := .inProgress }
  | copied (now : Nat) (w : Worker) (i : Nat) (ho : o = .poll now w i .success) (j : Job)
      (hj : s.db.jobs[i]? = some j) (hk : j.kind = .copy) (hs : j.status = .processing)
      (hw : j.owner = some w) (hq : j.hasReq = true) (ht : j.target = some t) :
      TpChange cfg s o t x
        { x with state := .ready, readyAt := some now,
                 expiresAt := if cfg.lustre x.backend then some (now + cfg.lustreTtl) else x.expiresAt }
  | failed (w : Worker) (i : Nat) (ho : o.on = some (w, i)) (j : Job) (hj : s.db.jobs[i]? = some j)
      (hs : j.status = .processing) (hw : j.owner = some w) (ht : j.target = some t) :
      TpChange cfg s o t x { x with state := .failed }
  | deleting (now : Nat) (w : Worker) (i : Nat) (ho : o = .beginDelete now w i) (j : Job)
      (hh : (w, i) ∈ s.held) (hj : s.db.jobs[i]? = some j) (hk : j.kind = .delAll) (ha : j.asset = x.asset) :
      TpChange cfg s o t x { x with state := .deleting, readyAt := none, expiresAt := none }
  | deleted (now : Nat) (w : Worker) (i : Nat) (ho : o = .endDelete now w i) (j : Job)
      (hj : s.db.jobs[i]? = some j) (hk : j.kind = .delAll) (hs : j.status = .processing)
      (hw : j.owner = some w) (ha : j.asset = x.asset) :
      TpChange cfg s o t x { x with state := .deleted, readyAt := none, expiresAt := none }

/-- How the row `r` of asset `a` may look after step `o` in state `s`. -/
inductive AssetChange (cfg : Cfg) (s : Sys) (o : Op) (a : Nat) (r : Asset) : Asset → Prop
  | same : AssetChange cfg s o a r r
  | keptAlive (now : Nat) (ho : o = .keepAlive now a) :
      AssetChange cfg s o a r { r with writeExp := some (now + cfg.keepAlive) }
  | finalized (now k : Nat) (q : FinReq) (ho : o = .finWrite now k) (hr : s.fins[k]? = some q)
      (hd : q.done = false) (ha : q.asset = a) :
      AssetChange cfg s o a r { r with state := .stored, finalizedAt := some now, writeExp := none }
  | deleting (now : Nat) (w : Worker) (i : Nat) (ho : o = .beginDelete now w i) (j : Job)
      (hh : (w, i) ∈ s.held) (hj : s.db.jobs[i]? = some j) (hk : j.kind = .delAll) (ha : j.asset = a) :
      AssetChange cfg s o a r { r with state := .deleted, deletedAt := some now }
  | deleted (now : Nat) (w : Worker) (i : Nat) (ho : o = .endDelete now w i) (j : Job)
      (hj : s.db.jobs[i]? = some j) (hk : j.kind = .delAll) (hs : j.status = .processing)
      (hw : j.owner = some w) (ha : j.asset = a) :
      AssetChange cfg s o a r { r with state := .deleted, deletedAt := some now }

theorem failJob_tps (d : DB) (i : Nat) (j : Job) (hj : d.jobs[i]? = some j) :
    (failJob i d).tps = match j.target with
      | some t => d.tps.modify t fun x => { x with state := .failed }
      | none => d.tps := by
  simp only [failJob, hj]; cases j.target <;> rfl

theorem failJob_assets (d : DB) (i : Nat) : (failJob i d).assets = d.assets := by
  simp only [failJob]; split
  · rfl
  · next j _ => cases j.target <;> rfl

theorem completeJob_assets (cfg : Cfg) (now i : Nat) (d : DB) : (completeJob cfg now i d).assets = d.assets := by
  simp only [completeJob]; split
  · rfl
  · next j _ => cases j.kind <;> cases j.target <;> rfl

theorem completeJob_tps_del (cfg : Cfg) (now i : Nat) (d : DB) (j : Job) (hj : d.jobs[i]? = some j)
    (hk : j.kind = .delAll) : (completeJob cfg now i d).tps = d.tps := by
  simp only [completeJob, hj, hk]; rfl

theorem claimCommit_assets (cfg : Cfg) (c : Claim) (d : DB) : (claimCommit cfg c d).assets = d.assets := by
  simp only [claimCommit]; split
  · rfl
  · next j _ =>
    rcases hcm : commit_cases d (match j.kind, j.target with
      | .copy, some t => (d.setJob c.job fun j =>
        { j with status := .processing, expAt := some (c.now + cfg.lease), owner := some c.worker }).setTp t
          fun x => { x with state := .inProgress }
      | _, _ => d.setJob c.job fun j =>
        { j with status := .processing, expAt := some (c.now + cfg.lease), owner := some c.worker }) with e | ⟨e, _⟩
    · refine Eq.trans (congrArg DB.assets ?_) rfl
      exact e
    · refine Eq.trans (congrArg DB.assets e) ?_
      cases j.kind <;> cases j.target <;> rfl

theorem commit_tps (d d' : DB) (i : Nat) (j : TierPath) (h : d.tps[i]? = some j) {P : TierPath → Prop}
    (h0 : P j) (h1 : ∃ j', d'.tps[i]? = some j' ∧ P j') :
    ∃ j', (commit d d').tps[i]? = some j' ∧ P j' := by
  rcases commit_cases d d' with e | ⟨e, _⟩
  · rw [e]; exact ⟨j, h, h0⟩
  · rw [e]; exact h1

theorem commit_assets (d d' : DB) (i : Nat) (j : Asset) (h : d.assets[i]? = some j) {P : Asset → Prop}
    (h0 : P j) (h1 : ∃ j', d'.assets[i]? = some j' ∧ P j') :
    ∃ j', (commit d d').assets[i]? = some j' ∧ P j' := by
  rcases commit_cases d d' with e | ⟨e, _⟩
  · rw [e]; exact ⟨j, h, h0⟩
  · rw [e]; exact h1

theorem fold_ready (now : Nat) : ∀ (ts : List Nat) (d : DB) (t : Nat) (x : TierPath), d.tps[t]? = some x →
    (ts.foldl (fun d t => d.setTp t fun x => { x with state := .ready, readyAt := some now }) d).tps[t]? =
      some (if t ∈ ts then { x with state := .ready, readyAt := some now } else x)
  | [], d, t, x, h => by simp [h]
  | k :: ts, d, t, x, h => by
    simp only [List.foldl_cons]
    by_cases hk : k = t
    · subst hk
      have h' : (d.setTp k fun x => { x with state := .ready, readyAt := some now }).tps[k]? =
          some { x with state := .ready, readyAt := some now } := by
        simp [DB.setTp, h]
      rw [fold_ready now ts _ k _ h']
      simp
    · have h' : (d.setTp k fun x => { x with state := .ready, readyAt := some now }).tps[t]? = some x := by
        simp [DB.setTp, h, hk]
      rw [fold_ready now ts _ t _ h']
      have : (t ∈ k :: ts) ↔ t ∈ ts := by simp [Ne.symm hk]
      simp only [this]

theorem fold_ready_assets (now : Nat) : ∀ (ts : List Nat) (d : DB),
    (ts.foldl (fun d t => d.setTp t fun x => { x with state := .ready, readyAt := some now }) d).assets = d.assets
  | [], d => rfl
  | k :: ts, d => by simp only [List.foldl_cons]; rw [fold_ready_assets now ts]; rfl

theorem modify_tp {l : List TierPath} {i : Nat} {j : TierPath} (h : l[i]? = some j) (k : Nat)
    (f : TierPath → TierPath) : (l.modify k f)[i]? = some (if k = i then f j else j) := by
  rw [getElem?_modify_eq, h]; rfl

theorem modify_asset {l : List Asset} {i : Nat} {j : Asset} (h : l[i]? = some j) (k : Nat)
    (f : Asset → Asset) : (l.modify k f)[i]? = some (if k = i then f j else j) := by
  rw [getElem?_modify_eq, h]; rfl

theorem claimCommit_tp (cfg : Cfg) (s : Sys) (o : Op) (c : Claim) (hc : claimOf cfg s o = some c)
    (hcl : ∀ j, s.db.jobs[c.job]? = some j → j.claimable c.now = true) (t : Nat) (x : TierPath)
    (hx : s.db.tps[t]? = some x) :
    ∃ x', (claimCommit cfg c s.db).tps[t]? = some x' ∧ TpChange cfg s o t x x' := by
  simp only [claimCommit]
  split
  · exact ⟨x, hx, .same⟩
  · next j hj =>
    refine commit_tps _ _ _ x hx .same ?_
    split
    · next t' hk ht =>
      simp only [DB.setTp, DB.setJob]
      rw [modify_tp hx]
      by_cases h : t' = t
      · subst h
        rw [if_pos rfl]
        exact ⟨_, rfl, .claimed c hc j hj hk (hcl j hj) ht⟩
      · rw [if_neg h]; exact ⟨_, rfl, .same⟩
    · exact ⟨x, hx, .same⟩

theorem failJob_tp (cfg : Cfg) (s : Sys) (o : Op) (w : Worker) (i : Nat) (d : DB) (ho : o.on = some (w, i))
    (hown : owns s.db w i = true) (hd : d.tps = s.db.tps)
    (hdj : ∃ j', d.jobs[i]? = some j' ∧ ∀ j, s.db.jobs[i]? = some j → j'.target = j.target) (t : Nat) (x : TierPath)
    (hx : s.db.tps[t]? = some x) :
    ∃ x', (failJob i d).tps[t]? = some x' ∧ TpChange cfg s o t x x' := by
  obtain ⟨j, hj, hs, hw⟩ := (owns_iff _ _ _).1 hown
  obtain ⟨j', hj', ht⟩ := hdj
  have ht := ht j hj
  rw [failJob_tps d i j' hj', ht]
  cases htt : j.target with
  | none => exact ⟨x, hd ▸ hx, .same⟩
  | some t' =>
    dsimp only
    rw [hd, modify_tp hx]
    by_cases h : t' = t
    · subst h
      rw [if_pos rfl]
      exact ⟨_, rfl, .failed w i ho j hj hs hw htt⟩
    · rw [if_neg h]; exact ⟨_, rfl, .same⟩

/-- The one way in which a tier path row changes. -/
theorem tp_step (cfg : Cfg) (s : Sys) (h : SInv s) (o : Op) (t : Nat) (x : TierPath)
    (hx : s.db.tps[t]? = some x) :
    ∃ x', (step cfg s o).db.tps[t]? = some x' ∧ TpChange cfg s o t x x' := by
  have triv : ∃ x', s.db.tps[t]? = some x' ∧ TpChange cfg s o t x x' := ⟨x, hx, .same⟩
  have jself : ∀ (i : Nat) (j : Job), s.db.jobs[i]? = some j →
      ∃ j' : Job, s.db.jobs[i]? = some j' ∧ ∀ j : Job, s.db.jobs[i]? = some j → j'.target = j.target :=
    fun i j hj => ⟨j, hj, fun j' hj' => by rw [hj] at hj'; cases hj'; rfl⟩
  cases o with
  | tick n => exact triv
  | reserve now p b =>
    simp only [step]; split
    · simp only [Sys.setDb, reserve]; split
      · exact ⟨x, getElem?_append_old hx _, .same⟩
      · exact triv
    · exact triv
  | keepAlive now a => simp only [step]; split <;> exact triv
  | finRead a => simp only [step]; split <;> exact triv
  | finWrite now k =>
    simp only [step]; split
    · split
      · next r hr =>
        split
        · exact triv
        · next hdn =>
          split
          · next d hd =>
            unfold finalizeWrite tryCommit at hd
            dsimp only at hd
            split at hd
            · cases hd
              dsimp only
              rw [fold_ready now r.tps (s.db.setAsset r.asset _) t x hx]
              by_cases ht : t ∈ r.tps
              · rw [if_pos ht]
                exact ⟨_, rfl, .finalized now k r rfl hr (by simpa using hdn) ht⟩
              · rw [if_neg ht]; exact ⟨_, rfl, .same⟩
            · cases hd
          · exact triv
      · exact triv
    · exact triv
  | finTrigger now l1 k =>
    simp only [step]; split
    · split
      · split
        · refine commit_tps _ _ _ x hx .same ⟨x, getElem?_append_old hx _, .same⟩
        · exact triv
      · exact triv
    · exact triv
  | prefRead a b => simp only [step]; split <;> exact triv
  | prefCheck k => simp only [step]; (repeat' split) <;> exact triv
  | prefCommit now k =>
    simp only [step]; split
    · split
      · split
        · refine commit_tps _ _ _ x hx .same ⟨x, getElem?_append_old hx _, .same⟩
        · exact triv
      · exact triv
    · exact triv
  | prefKeepAlive now k =>
    simp only [step]; split
    · simp only [Sys.setDb, prefetchKeepAlive]
      split
      · exact triv
      · next y hy =>
        split
        · exact triv
        · next hf =>
          split
          · exact triv
          · next hdp =>
            split
            · exact triv
            · split
              · exact triv
              · next e he =>
                split
                · next hlt =>
                  simp only [DB.setTp]
                  rw [modify_tp hx]
                  by_cases hk : k = t
                  · subst hk
                    rw [hx] at hy; cases hy
                    rw [if_pos rfl]
                    exact ⟨_, rfl, .keptAlive now e rfl he hlt (by simpa using hdp) hf⟩
                  · rw [if_neg hk]; exact ⟨_, rfl, .same⟩
                · exact triv
    · exact triv
  | delete now a =>
    simp only [step]; split
    · refine ⟨x, ?_, .same⟩
      simp only [Sys.setDb, queueDelete]
      repeat' split
      all_goals exact hx
    · exact triv
  | claim w b now =>
    simp only [step]; split
    · next hg =>
      split
      · next c hc =>
        obtain ⟨_, _, hn, _, ⟨j0, hj0, he⟩, _⟩ := claimSelect_spec hc
        refine claimCommit_tp cfg s _ c ?_ ?_ t x hx
        · simp only [claimOf, hg, and_self, if_true, hc]
        · intro j' hj'; rw [hj0] at hj'; cases hj'; rw [hn]; exact eligible_claimable he
      · exact triv
    · exact triv
  | claimSelect w b now =>
    simp only [step]; split
    · split <;> exact triv
    · exact triv
  | claimCommit k =>
    simp only [step]; split
    · next c hc =>
      obtain ⟨hn, j0, hj0, hcl, _⟩ := h.clm c (List.mem_of_getElem? hc)
      refine claimCommit_tp cfg s (.claimCommit k) c hc ?_ t x hx
      intro j' hj'; rw [hj0] at hj'; cases hj'; exact hcl
    · exact triv
  | trigger w k b =>
    simp only [step]; split
    · simp only [Sys.setDb, saveTrigger]
      split
      · next hown =>
        split
        · exact triv
        · obtain ⟨j0, hj0, _⟩ := (owns_iff _ _ _).1 hown
          exact commit_tps _ _ _ x hx .same (failJob_tp cfg s _ w k _ rfl hown rfl (jself _ _ hj0) t x hx)
      · exact triv
    · exact triv
  | poll now w k p =>
    simp only [step]; split
    · split
      · next j hj =>
        split
        · next hkq =>
          simp only [Sys.setDb, pollCopy]
          split
          · next hown =>
            obtain ⟨j0, hj0, hs, hw⟩ := (owns_iff _ _ _).1 hown
            rw [hj] at hj0; cases hj0
            have hx1 : (extendLease cfg now k s.db).jobs[k]? = some { j with expAt := some (now + cfg.lease) } := by
              simp only [extendLease, DB.setJob, modify_job hj, if_true]
            have jx : ∃ j', (extendLease cfg now k s.db).jobs[k]? = some j' ∧
                ∀ j, s.db.jobs[k]? = some j → j'.target = j.target :=
              ⟨_, hx1, fun j' hj' => by rw [hj] at hj'; cases hj'; rfl⟩
            cases p
            · refine commit_tps _ _ _ x hx .same ?_
              simp only [completeJob, hx1, hkq.1]
              cases htt : j.target with
              | none => exact triv
              | some t' =>
                simp only [DB.setTp, DB.setJob, extendLease]
                rw [modify_tp hx]
                by_cases ht : t' = t
                · subst ht
                  rw [if_pos rfl]
                  exact ⟨_, rfl, .copied now w k rfl j hj hkq.1 hs hw hkq.2 htt⟩
                · rw [if_neg ht]; exact ⟨_, rfl, .same⟩
            · exact commit_tps _ _ _ x hx .same (failJob_tp cfg s (.poll now w k .failed) w k (extendLease cfg now k s.db) rfl hown rfl jx t x hx)
            · exact triv
            · exact commit_tps _ _ _ x hx .same (failJob_tp cfg s _ w k _ rfl hown rfl (jself _ _ hj) t x hx)
            · exact triv
          · exact triv
        · exact triv
      · exact triv
    · exact triv
  | heartbeat now w k =>
    simp only [step]; split
    · split
      · split
        · exact triv
        · simp only [Sys.setDb, extendDelete]
          split <;> exact triv
      · exact triv
    · exact triv
  | beginDelete now w k =>
    simp only [step]; split
    · next hg =>
      split
      · next j hj =>
        split
        · exact triv
        · next hk =>
          rcases h.db.tgt k j hj with ⟨hk', hn⟩ | ⟨hk', _⟩
          · simp only [Sys.setDb, beginDelete, hj, hn, DB.setTpsOf, DB.setAsset, List.getElem?_map, hx,
              Option.map_some]
            by_cases ha : x.asset = j.asset
            · rw [if_pos ha]
              exact ⟨_, rfl, .deleting now w k rfl j hg.2 hj hk' ha.symm⟩
            · rw [if_neg ha]; exact ⟨_, rfl, .same⟩
          · exact absurd hk' hk
      · exact triv
    · exact triv
  | endDelete now w k =>
    simp only [step]; split
    · split
      · next j hj =>
        split
        · exact triv
        · next hk =>
          rcases h.db.tgt k j hj with ⟨hk', hn⟩ | ⟨hk', _⟩
          · simp only [Sys.setDb, completeDelete, hj, hk']
            split
            · next hown =>
              obtain ⟨j0, hj0, hs, hw⟩ := (owns_iff _ _ _).1 hown
              rw [hj] at hj0; cases hj0
              refine commit_tps _ _ _ x hx .same ?_
              rw [completeJob_tps_del cfg now k (DB.setTpsOf (DB.setAsset s.db _ _) _ _) j hj hk']
              simp only [DB.setTpsOf, DB.setAsset, List.getElem?_map, hx, Option.map_some]
              by_cases ha : x.asset = j.asset
              · rw [if_pos ha]
                exact ⟨_, rfl, .deleted now w k rfl j hj hk' hs hw ha.symm⟩
              · rw [if_neg ha]; exact ⟨_, rfl, .same⟩
            · exact triv
          · exact absurd hk' hk
      · exact triv
    · exact triv
  | fail w k =>
    simp only [step]; split
    · simp only [Sys.setDb, failById]
      split
      · next hown =>
        obtain ⟨j0, hj0, _⟩ := (owns_iff _ _ _).1 hown
        exact commit_tps _ _ _ x hx .same (failJob_tp cfg s _ w k _ rfl hown rfl (jself _ _ hj0) t x hx)
      · exact triv
    · exact triv

/-- The one way in which an asset row changes. -/
theorem asset_step (cfg : Cfg) (s : Sys) (h : SInv s) (o : Op) (a : Nat) (r : Asset)
    (hr : s.db.assets[a]? = some r) :
    ∃ r', (step cfg s o).db.assets[a]? = some r' ∧ AssetChange cfg s o a r r' := by
  have triv : ∃ x', s.db.assets[a]? = some x' ∧ AssetChange cfg s o a r x' := ⟨r, hr, .same⟩
  have hcm : ∀ {d' : DB}, d'.assets = s.db.assets →
      ∃ x', (commit s.db d').assets[a]? = some x' ∧ AssetChange cfg s o a r x' :=
    fun e => commit_assets _ _ _ r hr .same ⟨r, by rw [e]; exact hr, .same⟩
  cases o with
  | tick n => exact triv
  | reserve now p b =>
    simp only [step]; split
    · simp only [Sys.setDb, reserve]; split
      · exact ⟨r, getElem?_append_old hr _, .same⟩
      · exact triv
    · exact triv
  | keepAlive now k =>
    simp only [step]; split
    · simp only [Sys.setDb, reserveKeepAlive, DB.setAsset]
      rw [modify_asset hr]
      by_cases hk : k = a
      · subst hk; rw [if_pos rfl]; exact ⟨_, rfl, .keptAlive now rfl⟩
      · rw [if_neg hk]; exact ⟨_, rfl, .same⟩
    · exact triv
  | finRead a => simp only [step]; split <;> exact triv
  | finWrite now k =>
    simp only [step]; split
    · split
      · next q hq =>
        split
        · exact triv
        · next hdn =>
          split
          · next d hd =>
            unfold finalizeWrite tryCommit at hd
            dsimp only at hd
            split at hd
            · cases hd
              dsimp only
              rw [fold_ready_assets]
              simp only [DB.setAsset]
              rw [modify_asset hr]
              by_cases ht : q.asset = a
              · rw [if_pos ht]
                exact ⟨_, rfl, .finalized now k q rfl hq (by simpa using hdn) ht⟩
              · rw [if_neg ht]; exact ⟨_, rfl, .same⟩
            · cases hd
          · exact triv
      · exact triv
    · exact triv
  | finTrigger now l1 k =>
    simp only [step]; split
    · split
      · split
        · exact hcm rfl
        · exact triv
      · exact triv
    · exact triv
  | prefRead a b => simp only [step]; split <;> exact triv
  | prefCheck k => simp only [step]; (repeat' split) <;> exact triv
  | prefCommit now k =>
    simp only [step]; split
    · split
      · split
        · exact hcm rfl
        · exact triv
      · exact triv
    · exact triv
  | prefKeepAlive now k =>
    simp only [step]; split
    · refine ⟨r, ?_, .same⟩
      simp only [Sys.setDb, prefetchKeepAlive]
      repeat' split
      all_goals exact hr
    · exact triv
  | delete now a =>
    simp only [step]; split
    · refine ⟨r, ?_, .same⟩
      simp only [Sys.setDb, queueDelete]
      repeat' split
      all_goals exact hr
    · exact triv
  | claim w b now =>
    simp only [step]; split
    · split
      · exact ⟨r, by rw [claimCommit_assets]; exact hr, .same⟩
      · exact triv
    · exact triv
  | claimSelect w b now =>
    simp only [step]; split
    · split <;> exact triv
    · exact triv
  | claimCommit k =>
    simp only [step]; split
    · exact ⟨r, by rw [claimCommit_assets]; exact hr, .same⟩
    · exact triv
  | trigger w k b =>
    simp only [step]; split
    · simp only [Sys.setDb, saveTrigger]
      split
      · split
        · exact triv
        · exact hcm (failJob_assets _ _)
      · exact triv
    · exact triv
  | poll now w k p =>
    simp only [step]; split
    · split
      · split
        · simp only [Sys.setDb, pollCopy]
          split
          · cases p
            · exact hcm (by rw [completeJob_assets]; rfl)
            · exact hcm (by rw [failJob_assets]; rfl)
            · exact triv
            · exact hcm (failJob_assets _ _)
            · exact triv
          · exact triv
        · exact triv
      · exact triv
    · exact triv
  | heartbeat now w k =>
    simp only [step]; split
    · split
      · split
        · exact triv
        · simp only [Sys.setDb, extendDelete]
          split <;> exact triv
      · exact triv
    · exact triv
  | beginDelete now w k =>
    simp only [step]; split
    · next hg =>
      split
      · next j hj =>
        split
        · exact triv
        · next hk =>
          rcases h.db.tgt k j hj with ⟨hk', hn⟩ | ⟨hk', _⟩
          · simp only [Sys.setDb, beginDelete, hj, hn, DB.setTpsOf, DB.setAsset]
            rw [modify_asset hr]
            by_cases ha : j.asset = a
            · rw [if_pos ha]
              exact ⟨_, rfl, .deleting now w k rfl j hg.2 hj hk' ha⟩
            · rw [if_neg ha]; exact ⟨_, rfl, .same⟩
          · exact absurd hk' hk
      · exact triv
    · exact triv
  | endDelete now w k =>
    simp only [step]; split
    · split
      · next j hj =>
        split
        · exact triv
        · next hk =>
          rcases h.db.tgt k j hj with ⟨hk', hn⟩ | ⟨hk', _⟩
          · simp only [Sys.setDb, completeDelete, hj, hk']
            split
            · next hown =>
              obtain ⟨j0, hj0, hs, hw⟩ := (owns_iff _ _ _).1 hown
              rw [hj] at hj0; cases hj0
              refine commit_assets _ _ _ r hr .same ?_
              rw [completeJob_assets]
              simp only [DB.setTpsOf, DB.setAsset]
              rw [modify_asset hr]
              by_cases ha : j.asset = a
              · rw [if_pos ha]
                exact ⟨_, rfl, .deleted now w k rfl j hj hk' hs hw ha⟩
              · rw [if_neg ha]; exact ⟨_, rfl, .same⟩
            · exact triv
          · exact absurd hk' hk
      · exact triv
    · exact triv
  | fail w k =>
    simp only [step]; split
    · simp only [Sys.setDb, failById]
      split
      · exact hcm (failJob_assets _ _)
      · exact triv
    · exact triv

end Verif.Tiering
