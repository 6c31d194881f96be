import Verif.Tiering.Lemmas

/-!
# Tiering service: the system invariant, preserved by every step
-/
namespace Verif.Tiering

/-- What a transaction that may not touch the job rows in `locked` does to the tables. -/
structure Change (d d' : DB) (locked : List Nat) : Prop where
  evo : Evo d d'
  inv : DInv d'
  ok : d'.ok = true
  old : ∀ (i : Nat) (j : Job), d'.jobs[i]? = some j → d.jobs.length ≤ i →
    ∀ t, j.target = some t → d.tps.length ≤ t
  lck : ∀ i ∈ locked, d.jobs[i]?.isSome → d'.jobs[i]? = d.jobs[i]?

theorem Change.refl {d : DB} (h : DInv d) (ho : d.ok = true) (l : List Nat) : Change d d l :=
  ⟨Evo.refl d, h, ho, fun i j hj hle => by
    have := (List.getElem?_eq_some_iff.1 hj).1; omega, fun _ _ _ => rfl⟩

/-- Changes that keep the jobs table's length. -/
theorem Change.mk' {d d' : DB} {l : List Nat} (evo : Evo d d') (inv : DInv d') (ok : d'.ok = true)
    (hlen : d'.jobs.length = d.jobs.length) (lck : ∀ i ∈ l, d'.jobs[i]? = d.jobs[i]?) :
    Change d d' l :=
  ⟨evo, inv, ok, fun i j hj hle => by
    have := (List.getElem?_eq_some_iff.1 hj).1; omega, fun i hi _ => lck i hi⟩

theorem Change.commit {d d' : DB} {l : List Nat} (h : DInv d) (ho : d.ok = true)
    (hc : d'.ok = true → Change d d' l) : Change d (commit d d') l := by
  unfold Verif.Tiering.commit tryCommit
  split
  · next h' => exact hc h'
  · exact Change.refl h ho l

theorem commit_cases (d d' : DB) : commit d d' = d ∨ (commit d d' = d' ∧ d'.ok = true) := by
  unfold Verif.Tiering.commit tryCommit
  split
  · next h => exact Or.inr ⟨rfl, h⟩
  · exact Or.inl rfl

/-! ## Worker transactions on one job -/

theorem setJob_self (d : DB) (i : Nat) (f : Job → Job) (j : Job) (hj : d.jobs[i]? = some j) :
    (d.setJob i f).jobs[i]? = some (f j) := by
  simp [DB.setJob, hj]

theorem setJob_ne (d : DB) (i k : Nat) (f : Job → Job) (h : i ≠ k) :
    (d.setJob i f).jobs[k]? = d.jobs[k]? := by
  simp only [DB.setJob, getElem?_modify_eq]
  cases d.jobs[k]? <;> simp [h]

theorem setJob_len (d : DB) (i : Nat) (f : Job → Job) : (d.setJob i f).jobs.length = d.jobs.length := by
  simp [DB.setJob]

theorem owns_iff (d : DB) (w : Worker) (i : Nat) :
    owns d w i = true ↔ ∃ j, d.jobs[i]? = some j ∧ j.status = .processing ∧ j.owner = some w := by
  unfold owns
  cases h : d.jobs[i]? with
  | none => simp
  | some j => simp

theorem ok_setJob {d : DB} (h : d.ok = true) (i : Nat) (f : Job → Job) : (d.setJob i f).ok = true := h

theorem dinv_extendLease {d : DB} (cfg : Cfg) (h : DInv d) (now i : Nat) :
    DInv (extendLease cfg now i d) := by
  apply dinv_setJob h
  intro j hj
  refine ⟨rfl, rfl, rfl, fun h => h, fun hp => ⟨rfl, (h.exp i j hj hp).2⟩⟩

theorem evo_extendLease (cfg : Cfg) (d : DB) (now i : Nat) : Evo d (extendLease cfg now i d) :=
  evo_setJob _ _ _ fun _ => ⟨rfl, rfl, rfl, rfl⟩

theorem unfinished_readyAt {d : DB} (h : DInv d) (i : Nat) (j : Job) (hj : d.jobs[i]? = some j)
    (hu : j.unfinished = true) (t : Nat) (ht : j.target = some t) (x : TierPath)
    (hx : d.tps[t]? = some x) : x.readyAt = none := by
  cases hr : x.readyAt with
  | none => rfl
  | some v =>
    have := h.rdyJ t x hx (by simp [hr]) i j hj ht
    rw [hu] at this; cases this

theorem dinv_failJob {d : DB} (h : DInv d) (i : Nat)
    (hu : ∀ j, d.jobs[i]? = some j → j.unfinished = true) : DInv (failJob i d) := by
  unfold failJob
  cases hj : d.jobs[i]? with
  | none => exact h
  | some j =>
    have h1 : DInv (d.setJob i fun j => { j with status := .failed, owner := none, expAt := none }) := by
      apply dinv_setJob h
      intro j' _
      refine ⟨rfl, rfl, rfl, fun h => by simp [Job.unfinished] at h, fun h => by cases h⟩
    dsimp only
    cases ht : j.target with
    | none => exact h1
    | some t =>
      apply dinv_setTp h1
      · intro _; rfl
      · intro x hx
        have := unfinished_readyAt h i j hj (hu j hj) t ht x hx
        simp [this]
      · intro x hx hs
        have := unfinished_readyAt h i j hj (hu j hj) t ht x hx
        simp [this] at hs

theorem evo_failJob (d : DB) (i : Nat) : Evo d (failJob i d) := by
  unfold failJob
  cases hj : d.jobs[i]? with
  | none => exact Evo.refl d
  | some j =>
    have h1 : Evo d (d.setJob i fun j => { j with status := .failed, owner := none, expAt := none }) :=
      evo_setJob _ _ _ fun _ => ⟨rfl, rfl, rfl, rfl⟩
    dsimp only
    cases ht : j.target with
    | none => exact h1
    | some t => exact h1.trans (evo_setTp _ _ _ fun _ => ⟨rfl, rfl⟩)

/-- The jobs table after `failJob`. -/
theorem failJob_jobs (d : DB) (i : Nat) :
    (failJob i d).jobs = d.jobs.modify i fun j => { j with status := .failed, owner := none, expAt := none } := by
  unfold failJob
  cases hj : d.jobs[i]? with
  | none =>
    symm
    apply List.ext_getElem?
    intro k
    rw [getElem?_modify_eq]
    cases hk : d.jobs[k]? with
    | none => rfl
    | some y =>
      have : i ≠ k := by rintro rfl; rw [hj] at hk; cases hk
      simp [this]
  | some j =>
    dsimp only
    cases ht : j.target <;> rfl

theorem completeJob_jobs (cfg : Cfg) (now i : Nat) (d : DB) :
    (completeJob cfg now i d).jobs =
      d.jobs.modify i fun j => { j with status := .completed, owner := none, expAt := none } := by
  unfold completeJob
  cases hj : d.jobs[i]? with
  | none =>
    symm
    apply List.ext_getElem?
    intro k
    rw [getElem?_modify_eq]
    cases hk : d.jobs[k]? with
    | none => rfl
    | some y =>
      have : i ≠ k := by rintro rfl; rw [hj] at hk; cases hk
      simp [this]
  | some j =>
    dsimp only
    cases hk : j.kind <;> cases ht : j.target <;> rfl

theorem evo_completeJob (cfg : Cfg) (now i : Nat) (d : DB) : Evo d (completeJob cfg now i d) := by
  unfold completeJob
  cases hj : d.jobs[i]? with
  | none => exact Evo.refl d
  | some j =>
    have h1 : Evo d (d.setJob i fun j => { j with status := .completed, owner := none, expAt := none }) :=
      evo_setJob _ _ _ fun _ => ⟨rfl, rfl, rfl, rfl⟩
    dsimp only
    cases hk : j.kind <;> cases ht : j.target <;> first | exact h1 | skip
    exact h1.trans (evo_setTp _ _ _ fun _ => ⟨rfl, rfl⟩)

theorem dinv_completeJob {d : DB} (cfg : Cfg) (h : DInv d) (now i : Nat) :
    DInv (completeJob cfg now i d) := by
  unfold completeJob
  cases hj : d.jobs[i]? with
  | none => exact h
  | some j =>
    have h1 : DInv (d.setJob i fun j => { j with status := .completed, owner := none, expAt := none }) := by
      apply dinv_setJob h
      intro j' _
      refine ⟨rfl, rfl, rfl, fun h => by simp [Job.unfinished] at h, fun h => by cases h⟩
    dsimp only
    cases hk : j.kind <;> cases ht : j.target <;> first | exact h1 | skip
    rename_i t
    apply dinv_setTp h1
    · intro _; rfl
    · intro x hx; simp
    · intro x hx _ k j' hj' ht'
      have hi := setJob_self d i (fun j => { j with status := .completed, owner := none, expAt := none }) j hj
      have : k = i := h1.uniq k i j' _ t hj' hi ht' ht
      subst this
      rw [hi] at hj'; cases hj'
      rfl

theorem owns_unfinished {d : DB} {w : Worker} {i : Nat} (ho : owns d w i = true) :
    ∀ j, d.jobs[i]? = some j → j.unfinished = true := by
  intro j hj
  obtain ⟨j', hj', hs, _⟩ := (owns_iff d w i).1 ho
  rw [hj] at hj'; cases hj'
  simp [Job.unfinished, hs]

theorem extendLease_unfinished {d : DB} {i : Nat} (cfg : Cfg) (now : Nat)
    (h : ∀ j, d.jobs[i]? = some j → j.unfinished = true) :
    ∀ j, (extendLease cfg now i d).jobs[i]? = some j → j.unfinished = true := by
  intro j hj
  simp only [extendLease, DB.setJob, getElem?_modify_eq, Option.map_eq_some_iff] at hj
  obtain ⟨j0, h0, rfl⟩ := hj
  simpa [Job.unfinished] using h j0 h0

theorem modify_lck {l : List Job} {i : Nat} {f : Job → Job} {locked : List Nat} (h : i ∉ locked) :
    ∀ k ∈ locked, (l.modify i f)[k]? = l[k]? := by
  intro k hk
  rw [getElem?_modify_eq]
  have : i ≠ k := by rintro rfl; exact h hk
  cases l[k]? <;> simp [this]

theorem change_extendDelete {d : DB} (cfg : Cfg) (h : DInv d) (ho : d.ok = true) (now : Nat) (w : Worker)
    (i : Nat) (l : List Nat) (hl : i ∉ l) : Change d (extendDelete cfg now w i d) l := by
  unfold extendDelete
  split
  · exact Change.mk' (evo_extendLease _ _ _ _) (dinv_extendLease cfg h now i) ho
      (setJob_len _ _ _) (modify_lck hl)
  · exact Change.refl h ho l

theorem change_pollCopy {d : DB} (cfg : Cfg) (h : DInv d) (ho : d.ok = true) (now : Nat) (w : Worker)
    (i : Nat) (p : Poll) (l : List Nat) (hl : i ∉ l) : Change d (pollCopy cfg now w i p d) l := by
  unfold pollCopy
  split
  · next hown =>
    have hun := owns_unfinished hown
    cases p
    · refine Change.commit h ho fun hok => Change.mk' ((evo_extendLease _ _ _ _).trans (evo_completeJob _ _ _ _))
        (dinv_completeJob cfg (dinv_extendLease cfg h now i) now i) hok ?_ ?_
      · simp [completeJob_jobs, extendLease, DB.setJob]
      · intro k hk
        rw [completeJob_jobs, modify_lck hl k hk]; exact modify_lck hl k hk
    · refine Change.commit h ho fun hok => Change.mk' ((evo_extendLease _ _ _ _).trans (evo_failJob _ _))
        (dinv_failJob (dinv_extendLease cfg h now i) i (extendLease_unfinished cfg now hun)) hok ?_ ?_
      · simp [failJob_jobs, extendLease, DB.setJob]
      · intro k hk
        rw [failJob_jobs, modify_lck hl k hk]; exact modify_lck hl k hk
    · exact Change.mk' (evo_extendLease _ _ _ _) (dinv_extendLease cfg h now i) ho
        (setJob_len _ _ _) (modify_lck hl)
    · refine Change.commit h ho fun hok => Change.mk' (evo_failJob _ _) (dinv_failJob h i hun) hok ?_ ?_
      · simp [failJob_jobs]
      · intro k hk; rw [failJob_jobs, modify_lck hl k hk]
    · exact Change.refl h ho l
  · exact Change.refl h ho l

theorem change_failById {d : DB} (h : DInv d) (ho : d.ok = true) (w : Worker)
    (i : Nat) (l : List Nat) (hl : i ∉ l) : Change d (failById w i d) l := by
  unfold failById
  split
  · next hown =>
    refine Change.commit h ho fun hok => Change.mk' (evo_failJob _ _)
      (dinv_failJob h i (owns_unfinished hown)) hok ?_ ?_
    · simp [failJob_jobs]
    · intro k hk; rw [failJob_jobs, modify_lck hl k hk]
  · exact Change.refl h ho l

theorem change_saveTrigger {d : DB} (h : DInv d) (ho : d.ok = true) (w : Worker)
    (i : Nat) (b : Bool) (l : List Nat) (hl : i ∉ l) : Change d (saveTrigger w i b d) l := by
  unfold saveTrigger
  split
  · next hown =>
    split
    · refine Change.mk' (evo_setJob _ _ _ fun _ => ⟨rfl, rfl, rfl, rfl⟩) (dinv_setJob h _ _ ?_) ho
        (setJob_len _ _ _) (modify_lck hl)
      intro j hj
      exact ⟨rfl, rfl, rfl, fun h => h, fun hp => h.exp i j hj hp⟩
    · refine Change.commit h ho fun hok => Change.mk' (evo_failJob _ _)
        (dinv_failJob h i (owns_unfinished hown)) hok ?_ ?_
      · simp [failJob_jobs]
      · intro k hk; rw [failJob_jobs, modify_lck hl k hk]
  · exact Change.refl h ho l

theorem claimable_unfinished {now : Nat} {j : Job} (h : j.claimable now = true) : j.unfinished = true := by
  unfold Job.claimable at h
  unfold Job.unfinished
  cases hs : j.status <;> simp [hs] at h ⊢

theorem claimCommit_jobs (cfg : Cfg) (c : Claim) (d : DB) :
    (claimCommit cfg c d).jobs = d.jobs ∨
    (claimCommit cfg c d).jobs = d.jobs.modify c.job fun j =>
      { j with status := .processing, expAt := some (c.now + cfg.lease), owner := some c.worker } := by
  unfold claimCommit
  cases hj : d.jobs[c.job]? with
  | none => exact Or.inl rfl
  | some j =>
    dsimp only
    rcases commit_cases d (match j.kind, j.target with
      | .copy, some t => (d.setJob c.job fun j =>
          { j with status := .processing, expAt := some (c.now + cfg.lease), owner := some c.worker }).setTp t
            fun x => { x with state := .inProgress }
      | _, _ => d.setJob c.job fun j =>
          { j with status := .processing, expAt := some (c.now + cfg.lease), owner := some c.worker }) with e | e
    · exact Or.inl (congrArg DB.jobs e)
    · right
      refine (congrArg DB.jobs e.1).trans ?_
      cases hk : j.kind <;> cases ht : j.target <;> rfl

theorem change_claimCommit {d : DB} (cfg : Cfg) (h : DInv d) (ho : d.ok = true) (c : Claim)
    (hu : ∀ j, d.jobs[c.job]? = some j → j.unfinished = true)
    (l : List Nat) (hl : c.job ∉ l) : Change d (claimCommit cfg c d) l := by
  have hjobs := claimCommit_jobs cfg c d
  have hlen : (claimCommit cfg c d).jobs.length = d.jobs.length := by
    rcases hjobs with e | e <;> simp [e]
  have hlck : ∀ k ∈ l, (claimCommit cfg c d).jobs[k]? = d.jobs[k]? := by
    intro k hk
    rcases hjobs with e | e
    · rw [e]
    · rw [e, modify_lck hl k hk]
  suffices h3 : Evo d (claimCommit cfg c d) ∧ DInv (claimCommit cfg c d) ∧ (claimCommit cfg c d).ok = true from
    Change.mk' h3.1 h3.2.1 h3.2.2 hlen hlck
  unfold claimCommit
  cases hj : d.jobs[c.job]? with
  | none => exact ⟨Evo.refl d, h, ho⟩
  | some j =>
    have e1 : Evo d (d.setJob c.job fun j =>
        { j with status := .processing, expAt := some (c.now + cfg.lease), owner := some c.worker }) :=
      evo_setJob _ _ _ fun _ => ⟨rfl, rfl, rfl, rfl⟩
    have h1 : DInv (d.setJob c.job fun j =>
        { j with status := .processing, expAt := some (c.now + cfg.lease), owner := some c.worker }) := by
      apply dinv_setJob h
      intro j' hj'
      exact ⟨rfl, rfl, rfl, fun _ => hu j' hj', fun _ => ⟨rfl, rfl⟩⟩
    dsimp only
    refine ⟨Evo.commit ?_, DInv.commit h ?_, ok_commit ho⟩
    · cases hk : j.kind <;> cases ht : j.target <;> first | exact e1 | skip
      exact e1.trans (evo_setTp _ _ _ fun _ => ⟨rfl, rfl⟩)
    · cases hk : j.kind <;> cases ht : j.target <;> first | exact h1 | skip
      rename_i t
      apply dinv_setTp h1
      · intro _; rfl
      · intro x hx
        have := unfinished_readyAt h _ j hj (hu j hj) t ht x hx
        simp [this]
      · intro x hx hs
        have := unfinished_readyAt h _ j hj (hu j hj) t ht x hx
        simp [this] at hs

theorem change_beginDelete {d : DB} (h : DInv d) (ho : d.ok = true) (now i : Nat) (l : List Nat) :
    Change d (beginDelete now i d) l := by
  unfold beginDelete
  cases hj : d.jobs[i]? with
  | none => exact Change.refl h ho l
  | some j =>
    dsimp only
    cases ht : j.target with
    | some t =>
      refine Change.mk' (evo_setTp _ _ _ fun _ => ⟨rfl, rfl⟩) (dinv_setTp h _ _ (fun _ => rfl) ?_ ?_) ?_ rfl
        (fun _ _ => rfl)
      · intro x _; simp [beginTp]
      · intro x _ hs; simp [beginTp] at hs
      · refine ok_mono ho (fun i x hx hl => ⟨x, hx, hl, rfl⟩) ?_
        intro k x hx hact
        simp only [DB.setTp, getElem?_modify_eq, Option.map_eq_some_iff] at hx
        obtain ⟨x0, h0, rfl⟩ := hx
        split at hact
        · simp [beginTp, TierPath.active] at hact
        · next hne => exact ⟨x0, h0, hact, by simp [hne], by simp [hne]⟩
    | none =>
      have e1 : Evo d (d.setAsset j.asset fun r => { r with state := .deleted, deletedAt := some now }) :=
        evo_setAsset _ _ _ fun r => ⟨rfl, fun h => by cases h⟩
      have h1 : DInv (d.setAsset j.asset fun r => { r with state := .deleted, deletedAt := some now }) :=
        dinv_setAsset h _ _ fun r h => by cases h
      refine Change.mk' (e1.trans (evo_setTpsOf _ _ _ fun _ => ⟨rfl, rfl⟩))
        (dinv_setTpsOf h1 _ _ (fun _ => rfl) fun _ => ⟨by simp [beginTp], rfl⟩) ?_ rfl (fun _ _ => rfl)
      refine ok_mono ho ?_ ?_
      · intro k x hx hl
        simp only [DB.setTpsOf, DB.setAsset, getElem?_modify_eq, Option.map_eq_some_iff] at hx
        obtain ⟨x0, h0, rfl⟩ := hx
        split at hl
        · simp [Asset.live] at hl
        · next hne => exact ⟨x0, h0, hl, by simp [hne]⟩
      · intro k x hx hact
        simp only [DB.setTpsOf, DB.setAsset, List.getElem?_map, Option.map_eq_some_iff] at hx
        obtain ⟨x0, h0, rfl⟩ := hx
        split at hact
        · simp [beginTp, TierPath.active] at hact
        · next hne => exact ⟨x0, h0, hact, by simp [hne], by simp [hne]⟩

theorem change_completeDelete {d : DB} (cfg : Cfg) (h : DInv d) (ho : d.ok = true) (now : Nat) (w : Worker)
    (i : Nat) (l : List Nat) (hl : i ∉ l) : Change d (completeDelete cfg now w i d) l := by
  unfold completeDelete
  split
  · cases hj : d.jobs[i]? with
    | none => exact Change.refl h ho l
    | some j =>
      dsimp only
      have e1 : Evo d (d.setAsset j.asset fun r => { r with state := .deleted, deletedAt := some now }) :=
        evo_setAsset _ _ _ fun r => ⟨rfl, fun h => by cases h⟩
      have h1 : DInv (d.setAsset j.asset fun r => { r with state := .deleted, deletedAt := some now }) :=
        dinv_setAsset h _ _ fun r h => by cases h
      have e2 := e1.trans (evo_setTpsOf _ j.asset endTp fun _ => ⟨rfl, rfl⟩)
      have h2 := dinv_setTpsOf h1 j.asset endTp (fun _ => rfl) fun _ => ⟨by simp [endTp], rfl⟩
      have e3 : ∀ t, Evo d (d.setTp t endTp) := fun t => evo_setTp _ _ _ fun _ => ⟨rfl, rfl⟩
      have h3 : ∀ t, DInv (d.setTp t endTp) := fun t =>
        dinv_setTp h _ _ (fun _ => rfl) (fun x _ => by simp [endTp]) (fun x _ hs => by simp [endTp] at hs)
      refine Change.commit h ho fun hok => ?_
      cases hk : j.kind <;> cases ht : j.target <;> simp only [hk, ht] at hok ⊢
      · refine Change.mk' (evo_completeJob _ _ _ _) (dinv_completeJob cfg h now i) hok ?_ ?_
        · simp [completeJob_jobs]
        · intro k hk; rw [completeJob_jobs, modify_lck hl k hk]
      · rename_i t
        refine Change.mk' ((e3 t).trans (evo_completeJob _ _ _ _)) (dinv_completeJob cfg (h3 t) now i) hok ?_ ?_
        · simp [completeJob_jobs, DB.setTp]
        · intro k hk; rw [completeJob_jobs, modify_lck hl k hk]; rfl
      · refine Change.mk' (evo_completeJob _ _ _ _) (dinv_completeJob cfg h now i) hok ?_ ?_
        · simp [completeJob_jobs]
        · intro k hk; rw [completeJob_jobs, modify_lck hl k hk]
      · rename_i t
        refine Change.mk' ((e3 t).trans (evo_completeJob _ _ _ _)) (dinv_completeJob cfg (h3 t) now i) hok ?_ ?_
        · simp [completeJob_jobs, DB.setTp]
        · intro k hk; rw [completeJob_jobs, modify_lck hl k hk]; rfl
      · refine Change.mk' (e2.trans (evo_completeJob _ _ _ _)) (dinv_completeJob cfg h2 now i) hok ?_ ?_
        · simp [completeJob_jobs, DB.setTpsOf, DB.setAsset]
        · intro k hk; rw [completeJob_jobs, modify_lck hl k hk]; rfl
      · refine Change.mk' (e2.trans (evo_completeJob _ _ _ _)) (dinv_completeJob cfg h2 now i) hok ?_ ?_
        · simp [completeJob_jobs, DB.setTpsOf, DB.setAsset]
        · intro k hk; rw [completeJob_jobs, modify_lck hl k hk]; rfl
  · exact Change.refl h ho l

/-! ## Client transactions -/

theorem change_reserve {d : DB} (cfg : Cfg) (h : DInv d) (ho : d.ok = true) (now p b : Nat) (l : List Nat) :
    Change d (reserve cfg now p b d).1 l := by
  unfold reserve
  dsimp only
  split
  · next hok =>
    have := evo_append d [{ path := p, state := .active, writeExp := some (now + cfg.keepAlive) }]
      [{ asset := d.assets.length, backend := b }] []
    rw [List.append_nil] at this
    exact Change.mk' this (dinv_newAsset h _ _ rfl (by simp) rfl) hok rfl (fun _ _ => rfl)
  · exact Change.refl h ho l

theorem change_keepAlive {d : DB} (cfg : Cfg) (h : DInv d) (ho : d.ok = true) (now a : Nat) (l : List Nat) :
    Change d (reserveKeepAlive cfg now a d) l := by
  unfold reserveKeepAlive
  refine Change.mk' (evo_setAsset _ _ _ fun r => ⟨rfl, fun h => h⟩) (dinv_setAsset h _ _ fun r h => h) ?_ rfl
    (fun _ _ => rfl)
  refine ok_mono ho ?_ (fun i x hx hl => ⟨x, hx, hl, rfl, rfl⟩)
  intro k x hx hl
  simp only [DB.setAsset, getElem?_modify_eq, Option.map_eq_some_iff] at hx
  obtain ⟨x0, h0, rfl⟩ := hx
  refine ⟨x0, h0, ?_, ?_⟩
  · split at hl <;> simpa [Asset.live] using hl
  · split <;> rfl

theorem newCopy_change {d : DB} (h : DInv d) (a : Nat) (r : Asset) (ha : d.assets[a]? = some r)
    (hna : r.state ≠ .active) (x : TierPath) (hxa : x.asset = a) (hs : x.state ≠ .ready)
    (hr : x.readyAt = none) (now : Nat) (l : List Nat)
    (hok : DB.ok { d with
      tps := d.tps ++ [x]
      jobs := d.jobs ++ [{ asset := a, kind := .copy, target := some d.tps.length, createdAt := now }] } = true) :
    Change d { d with
      tps := d.tps ++ [x]
      jobs := d.jobs ++ [{ asset := a, kind := .copy, target := some d.tps.length, createdAt := now }] } l := by
  refine ⟨?_, dinv_newCopy h a r ha hna x hxa hs hr now, hok, ?_, ?_⟩
  · have := evo_append d [] [x] [{ asset := a, kind := .copy, target := some d.tps.length, createdAt := now }]
    rwa [List.append_nil] at this
  · intro i j hj hle t ht
    rcases (getElem?_append_one _ _ _ _).1 hj with h' | ⟨_, rfl⟩
    · have := (List.getElem?_eq_some_iff.1 h').1; omega
    · cases ht; exact Nat.le_refl _
  · intro i _ hi
    exact List.getElem?_append_left (by
      cases hx : d.jobs[i]? with
      | none => simp [hx] at hi
      | some y => exact (List.getElem?_eq_some_iff.1 hx).1)

theorem change_triggerCopy {d : DB} (h : DInv d) (ho : d.ok = true) (now l1 : Nat) (q : FinReq) (r : Asset)
    (ha : d.assets[q.asset]? = some r) (hna : r.state ≠ .active) (l : List Nat) :
    Change d (triggerCopy now l1 q d) l := by
  unfold triggerCopy
  exact Change.commit h ho fun hok => newCopy_change h q.asset r ha hna _ rfl (by simp) rfl now l hok

theorem change_prefetchCommit {d : DB} (cfg : Cfg) (h : DInv d) (ho : d.ok = true) (now : Nat) (q : PrefReq)
    (r : Asset) (ha : d.assets[q.asset]? = some r) (hna : r.state ≠ .active) (l : List Nat) :
    Change d (prefetchCommit cfg now q d) l := by
  unfold prefetchCommit
  exact Change.commit h ho fun hok => newCopy_change h q.asset r ha hna _ rfl (by simp) rfl now l hok

theorem change_prefetchKeepAlive {d : DB} (cfg : Cfg) (h : DInv d) (ho : d.ok = true) (now t : Nat)
    (l : List Nat) : Change d (prefetchKeepAlive cfg now t d).1 l := by
  unfold prefetchKeepAlive
  cases hx : d.tps[t]? with
  | none => exact Change.refl h ho l
  | some x =>
    dsimp only
    repeat' split
    all_goals first | exact Change.refl h ho l | skip
    refine Change.mk' (evo_setTp _ _ _ fun _ => ⟨rfl, rfl⟩) (dinv_setTp h _ _ (fun _ => rfl) ?_ ?_) ?_ rfl
      (fun _ _ => rfl)
    · intro y hy; exact h.rdy t y hy
    · intro y hy hs; exact h.rdyJ t y hy hs
    · refine ok_mono ho (fun i x hx hl => ⟨x, hx, hl, rfl⟩) ?_
      intro k y hy hact
      simp only [DB.setTp, getElem?_modify_eq, Option.map_eq_some_iff] at hy
      obtain ⟨x0, h0, rfl⟩ := hy
      refine ⟨x0, h0, ?_, ?_⟩
      · split at hact <;> simpa [TierPath.active] using hact
      · split <;> exact ⟨rfl, rfl⟩

theorem change_queueDelete {d : DB} (h : DInv d) (ho : d.ok = true) (now a : Nat) (l : List Nat) :
    Change d (queueDelete now a d).1 l := by
  unfold queueDelete
  cases hx : d.assets[a]? with
  | none => exact Change.refl h ho l
  | some x =>
    dsimp only
    repeat' split
    all_goals first | exact Change.refl h ho l | skip
    refine ⟨?_, dinv_newDelete h a now, ho, ?_, ?_⟩
    · have := evo_append d [] [] [{ asset := a, kind := .delAll, target := none, createdAt := now }]
      rwa [List.append_nil, List.append_nil] at this
    · intro i j hj hle t ht
      rcases (getElem?_append_one _ _ _ _).1 hj with h' | ⟨_, rfl⟩
      · have := (List.getElem?_eq_some_iff.1 h').1; omega
      · cases ht
    · intro i _ hi
      exact List.getElem?_append_left (by
        cases hx : d.jobs[i]? with
        | none => simp [hx] at hi
        | some y => exact (List.getElem?_eq_some_iff.1 hx).1)

/-- The loop of `finalizeWrite`. -/
theorem finalize_fold (now : Nat) : ∀ (ts : List Nat) (d : DB), DInv d →
    (∀ t ∈ ts, ∀ (i : Nat) (j : Job), d.jobs[i]? = some j → j.target ≠ some t) →
    DInv (ts.foldl (fun d t => d.setTp t fun x => { x with state := .ready, readyAt := some now }) d) ∧
    Evo d (ts.foldl (fun d t => d.setTp t fun x => { x with state := .ready, readyAt := some now }) d) ∧
    (ts.foldl (fun d t => d.setTp t fun x => { x with state := .ready, readyAt := some now }) d).jobs = d.jobs ∧
    (ts.foldl (fun d t => d.setTp t fun x => { x with state := .ready, readyAt := some now }) d).assets = d.assets
  | [], d, h, _ => ⟨h, Evo.refl d, rfl, rfl⟩
  | t :: ts, d, h, hj => by
    rw [List.foldl_cons]
    have h1 : DInv (d.setTp t fun x => { x with state := .ready, readyAt := some now }) := by
      apply dinv_setTp h
      · intro _; rfl
      · intro x _; simp
      · intro x _ _ i j hij ht
        exact absurd ht (hj t (by simp) i j hij)
    obtain ⟨a, b, c, e⟩ := finalize_fold now ts _ h1 (fun t' ht' i j hij => hj t' (by simp [ht']) i j hij)
    have e1 : Evo d (d.setTp t fun x => { x with state := .ready, readyAt := some now }) :=
      evo_setTp _ _ _ fun _ => ⟨rfl, rfl⟩
    exact ⟨a, e1.trans b, c, e⟩

theorem change_finalizeWrite {d d' : DB} (h : DInv d) (now : Nat) (q : FinReq)
    (hj : ∀ t ∈ q.tps, ∀ (i : Nat) (j : Job), d.jobs[i]? = some j → j.target ≠ some t)
    (hw : finalizeWrite now q d = some d') (l : List Nat) :
    Change d d' l ∧ ∀ r, d'.assets[q.asset]? = some r → r.state = .stored := by
  unfold finalizeWrite at hw
  dsimp only at hw
  have h1 : DInv (d.setAsset q.asset fun x =>
      { x with state := .stored, finalizedAt := some now, writeExp := none }) :=
    dinv_setAsset h _ _ fun r h => by cases h
  have e1 : Evo d (d.setAsset q.asset fun x =>
      { x with state := .stored, finalizedAt := some now, writeExp := none }) :=
    evo_setAsset _ _ _ fun r => ⟨rfl, fun h => by cases h⟩
  obtain ⟨a, b, c, e⟩ := finalize_fold now q.tps _ h1 hj
  unfold tryCommit at hw
  split at hw
  · next hok =>
    cases hw
    refine ⟨Change.mk' (e1.trans b) a hok (by rw [c]; rfl) (fun k _ => by rw [c]; rfl), ?_⟩
    intro r hr
    rw [e] at hr
    simp only [DB.setAsset, getElem?_modify_eq, Option.map_eq_some_iff] at hr
    obtain ⟨r0, _, rfl⟩ := hr
    simp
  · cases hw

/-! ## The system -/

/-- The invariant of the whole system. -/
structure SInv (s : Sys) : Prop where
  db : DInv s.db
  ok : s.db.ok = true
  fin : ∀ r ∈ s.fins, (∃ x, s.db.assets[r.asset]? = some x ∧ (r.done = true → x.state ≠ .active)) ∧
    ∀ t ∈ r.tps, (∃ x, s.db.tps[t]? = some x ∧ x.asset = r.asset) ∧
      ∀ (i : Nat) (j : Job), s.db.jobs[i]? = some j → j.target ≠ some t
  pre : ∀ r ∈ s.prefs, ∃ x, s.db.assets[r.asset]? = some x ∧ x.state ≠ .active
  lck : s.locked.Nodup
  clm : ∀ c ∈ s.claims, c.now ≤ s.clk ∧ ∃ j, s.db.jobs[c.job]? = some j ∧ j.claimable c.now = true ∧
    (match c.backend with
     | none => j.target = none
     | some _ => s.db.backendOf j = c.backend)

/-- Lifting a change of the tables to the system. -/
theorem SInv.change {s : Sys} (h : SInv s) {d' : DB} (c : Change s.db d' s.locked) : SInv (s.setDb d') := by
  refine ⟨c.inv, c.ok, ?_, ?_, h.lck, ?_⟩
  · intro r hr
    obtain ⟨⟨x, hx, hd⟩, ht⟩ := h.fin r hr
    obtain ⟨x', hx', _, hs⟩ := c.evo.a _ _ hx
    refine ⟨⟨x', hx', fun hdone hact => hd hdone (hs hact)⟩, ?_⟩
    intro t htm
    obtain ⟨⟨y, hy, hya⟩, hno⟩ := ht t htm
    obtain ⟨y', hy', ha', _⟩ := c.evo.t _ _ hy
    refine ⟨⟨y', hy', ha'.trans hya⟩, ?_⟩
    intro i j hj htj
    rcases Nat.lt_or_ge i s.db.jobs.length with hlt | hge
    · obtain ⟨j', hj', _, _, e3, _⟩ := c.evo.j i _ (List.getElem?_eq_getElem hlt)
      rw [show (s.setDb d').db = d' from rfl] at hj
      rw [hj] at hj'; cases hj'
      exact hno i _ (List.getElem?_eq_getElem hlt) (e3 ▸ htj)
    · have := c.old i j hj hge t htj
      have := (List.getElem?_eq_some_iff.1 hy).1
      omega
  · intro r hr
    obtain ⟨x, hx, hs⟩ := h.pre r hr
    obtain ⟨x', hx', _, hs'⟩ := c.evo.a _ _ hx
    exact ⟨x', hx', fun h => hs (hs' h)⟩
  · intro cl hcl
    obtain ⟨hn, j, hj, hc, hb⟩ := h.clm cl hcl
    have hl : cl.job ∈ s.locked := List.mem_map.2 ⟨cl, hcl, rfl⟩
    refine ⟨hn, j, ?_, hc, ?_⟩
    · rw [show (s.setDb d').db = d' from rfl, c.lck _ hl (by simp [hj])]; exact hj
    · cases hcb : cl.backend with
      | none => simpa [hcb] using hb
      | some b =>
        simp only [hcb] at hb
        show d'.backendOf j = some b
        rw [backendOf_evo c.evo (j := j) (j' := j) rfl (fun t ht => (tgt_lt h.db _ j hj t ht).imp fun x hx => hx.1)]
        exact hb

theorem idxs_mem {α : Type} (p : α → Bool) (l : List α) (i : Nat) :
    i ∈ idxs p l ↔ ∃ x, l[i]? = some x ∧ p x = true := by
  unfold idxs
  rw [List.mem_filter, List.mem_range]
  constructor
  · rintro ⟨h, hp⟩
    rw [List.getElem?_eq_getElem h] at hp ⊢
    exact ⟨_, rfl, hp⟩
  · rintro ⟨x, hx, hp⟩
    exact ⟨(List.getElem?_eq_some_iff.1 hx).1, by simp [hx, hp]⟩

theorem oldest_mem (l : List Job) : ∀ (is : List Nat) (i : Nat), oldest l is = some i → i ∈ is
  | [], i, h => by cases h
  | k :: is, i, h => by
    unfold oldest at h
    cases ho : oldest l is with
    | none => simp [ho] at h; simp [h]
    | some m =>
      have hm := oldest_mem l is m ho
      rw [ho] at h
      cases hk : l[k]? with
      | none => simp [hk] at h; subst h; simp [hm]
      | some x =>
        simp only [hk] at h
        cases hy : l[m]? with
        | none => simp [hy] at h; simp [h]
        | some y =>
          simp only [hy] at h
          split at h <;> cases h
          · simp [hm]
          · simp

theorem claimSelect_spec {cfg : Cfg} {w : Worker} {b : Option Nat} {now : Nat} {locked : List Nat} {d : DB}
    {c : Claim} (h : claimSelect cfg w b now locked d = some c) :
    c.worker = w ∧ c.backend = b ∧ c.now = now ∧ c.job ∉ locked ∧
    (∃ j, d.jobs[c.job]? = some j ∧ eligible d b now j = true) ∧
    (∀ b', b = some b' → activeCount d b' now < cfg.maxActive) := by
  unfold claimSelect at h
  dsimp only at h
  have hcap : ∀ b', b = some b' → activeCount d b' now < cfg.maxActive := by
    rintro b' rfl
    apply Classical.byContradiction
    intro hn
    simp [hn] at h
  have h' : (oldest d.jobs ((idxs (eligible d b now) d.jobs).filter fun i => !locked.contains i)).map
      (fun i => ({ worker := w, backend := b, job := i, now := now } : Claim)) = some c := by
    cases b with
    | none => simpa using h
    | some b' => simpa [hcap b' rfl] using h
  rw [Option.map_eq_some_iff] at h'
  obtain ⟨i, hi, rfl⟩ := h'
  have hm := oldest_mem _ _ _ hi
  rw [List.mem_filter, idxs_mem] at hm
  exact ⟨rfl, rfl, rfl, by simpa using hm.2, hm.1, hcap⟩

theorem eligible_claimable {d : DB} {b : Option Nat} {now : Nat} {j : Job} (h : eligible d b now j = true) :
    j.claimable now = true := by
  unfold eligible at h
  simp only [Bool.and_eq_true] at h
  exact h.1.1

theorem eligible_backend {d : DB} {b : Option Nat} {now : Nat} {j : Job} (h : eligible d b now j = true) :
    match b with
    | none => j.target = none
    | some _ => d.backendOf j = b := by
  unfold eligible at h
  simp only [Bool.and_eq_true] at h
  cases b <;> simpa using h.2

theorem mem_eraseIdx_sub {α} {l : List α} {k : Nat} {x : α} (h : x ∈ l.eraseIdx k) : x ∈ l :=
  List.mem_of_mem_eraseIdx h

theorem map_eraseIdx {α β} (f : α → β) (l : List α) (k : Nat) :
    (l.eraseIdx k).map f = (l.map f).eraseIdx k := by
  induction l generalizing k with
  | nil => rfl
  | cons x xs ih => cases k <;> simp [ih]

theorem nodup_eraseIdx_not_mem {l : List Nat} (h : l.Nodup) {k : Nat} {x : Nat} (hx : l[k]? = some x) :
    x ∉ l.eraseIdx k := by
  induction l generalizing k with
  | nil => simp at hx
  | cons y ys ih =>
    rw [List.nodup_cons] at h
    cases k with
    | zero => simp at hx; subst hx; simpa using h.1
    | succ k =>
      simp only [List.getElem?_cons_succ] at hx
      simp only [List.eraseIdx_cons_succ, List.mem_cons, not_or]
      refine ⟨?_, ih h.2 hx⟩
      rintro rfl
      exact h.1 (List.mem_of_getElem? hx)

/-- Dropping or updating requests in memory. -/
theorem SInv.withFins {s : Sys} (h : SInv s) (l : List FinReq)
    (hl : ∀ r ∈ l, (∃ x, s.db.assets[r.asset]? = some x ∧ (r.done = true → x.state ≠ .active)) ∧
      ∀ t ∈ r.tps, (∃ x, s.db.tps[t]? = some x ∧ x.asset = r.asset) ∧
        ∀ (i : Nat) (j : Job), s.db.jobs[i]? = some j → j.target ≠ some t) :
    SInv { s with fins := l } := ⟨h.db, h.ok, hl, h.pre, h.lck, h.clm⟩

theorem SInv.withPrefs {s : Sys} (h : SInv s) (l : List PrefReq)
    (hl : ∀ r ∈ l, ∃ x, s.db.assets[r.asset]? = some x ∧ x.state ≠ .active) :
    SInv { s with prefs := l } := ⟨h.db, h.ok, h.fin, hl, h.lck, h.clm⟩

theorem SInv.withHeld {s : Sys} (h : SInv s) (l : List (Worker × Nat)) : SInv { s with held := l } :=
  ⟨h.db, h.ok, h.fin, h.pre, h.lck, h.clm⟩

theorem sinv_step (cfg : Cfg) (s : Sys) (h : SInv s) (o : Op) : SInv (step cfg s o) := by
  cases o with
  | tick n =>
    refine ⟨h.db, h.ok, h.fin, h.pre, h.lck, fun c hc => ?_⟩
    obtain ⟨a, b⟩ := h.clm c hc
    exact ⟨Nat.le_trans a (Nat.le_add_right _ _), b⟩
  | reserve now p b =>
    simp only [step]; split
    · exact h.change (change_reserve cfg h.db h.ok now p b _)
    · exact h
  | keepAlive now a =>
    simp only [step]; split
    · exact h.change (change_keepAlive cfg h.db h.ok now a _)
    · exact h
  | finRead a =>
    simp only [step]
    cases hr : finalizeRead a s.db with
    | none => exact h
    | some r =>
      apply h.withFins
      intro q hq
      rcases List.mem_append.1 hq with hq | hq
      · exact h.fin q hq
      · simp only [List.mem_singleton] at hq; subst hq
        unfold finalizeRead at hr
        cases ha : s.db.assets[a]? with
        | none => simp [ha] at hr
        | some x =>
          simp only [ha] at hr
          split at hr
          · next hact =>
            split at hr
            · cases hr
            · cases hr
              refine ⟨⟨x, ha, fun h => by cases h⟩, ?_⟩
              intro t ht
              obtain ⟨y, hy, hya⟩ := (idxs_mem _ _ _).1 ht
              have hya' : y.asset = a := by simpa using hya
              refine ⟨⟨y, hy, hya'⟩, ?_⟩
              intro i j hj htj
              obtain ⟨y', hy', hja⟩ := tgt_lt h.db i j hj t htj
              rw [hy] at hy'; cases hy'
              have hk := h.db.act a x ha hact i j hj (by omega)
              rcases h.db.tgt i j hj with ⟨_, e⟩ | ⟨e, _⟩
              · rw [e] at htj; cases htj
              · rw [hk] at e; cases e
          · cases hr
  | finWrite now k =>
    simp only [step]; split
    · cases hk : s.fins[k]? with
      | none => exact h
      | some r =>
        dsimp only
        have hr := h.fin r (List.mem_of_getElem? hk)
        split
        · exact h
        · cases hw : finalizeWrite now r s.db with
          | none => exact h.withFins _ fun q hq => h.fin q (mem_eraseIdx_sub hq)
          | some d =>
            obtain ⟨hc, hst⟩ := change_finalizeWrite h.db now r (fun t ht => (hr.2 t ht).2) hw s.locked
            have h' := h.change hc
            refine h'.withFins _ ?_
            intro q hq
            rcases List.mem_or_eq_of_mem_set hq with hq | rfl
            · exact h'.fin q hq
            · obtain ⟨⟨x, hx, _⟩, hrest⟩ := h'.fin r (List.mem_of_getElem? hk)
              refine ⟨⟨x, hx, fun _ => ?_⟩, hrest⟩
              rw [hst x hx]; simp
    · exact h
  | finTrigger now l1 k =>
    simp only [step]; split
    · cases hk : s.fins[k]? with
      | none => exact h
      | some r =>
        dsimp only
        split
        · next hd =>
          obtain ⟨⟨x, hx, hna⟩, _⟩ := h.fin r (List.mem_of_getElem? hk)
          have h' := h.change (change_triggerCopy h.db h.ok now l1 r x hx (hna hd) s.locked)
          exact h'.withFins _ fun q hq => h'.fin q (mem_eraseIdx_sub hq)
        · exact h
    · exact h
  | prefRead a b =>
    simp only [step]
    cases hr : prefetchRead a b s.db with
    | none => exact h
    | some v =>
      cases v with
      | inr t => exact h
      | inl r =>
        apply h.withPrefs
        intro q hq
        rcases List.mem_append.1 hq with hq | hq
        · exact h.pre q hq
        · simp only [List.mem_singleton] at hq; subst hq
          unfold prefetchRead at hr
          cases ha : s.db.assets[a]? with
          | none => simp [ha] at hr
          | some x =>
            simp only [ha] at hr
            split at hr
            · next hst =>
              split at hr
              · cases hr
              · cases hr; exact ⟨x, ha, by simp [hst]⟩
            · cases hr
  | prefCheck k =>
    simp only [step]
    cases hk : s.prefs[k]? with
    | none => exact h
    | some r =>
      dsimp only
      unfold prefetchCheck
      split
      · next r' hr' =>
        split at hr'
        · cases hr'
        · cases hr'
          apply h.withPrefs
          intro q hq
          rcases List.mem_or_eq_of_mem_set hq with hq | rfl
          · exact h.pre q hq
          · exact h.pre r (List.mem_of_getElem? hk)
      · exact h.withPrefs _ fun q hq => h.pre q (mem_eraseIdx_sub hq)
  | prefCommit now k =>
    simp only [step]; split
    · cases hk : s.prefs[k]? with
      | none => exact h
      | some r =>
        dsimp only
        split
        · obtain ⟨x, hx, hna⟩ := h.pre r (List.mem_of_getElem? hk)
          have h' := h.change (change_prefetchCommit cfg h.db h.ok now r x hx hna s.locked)
          exact h'.withPrefs _ fun q hq => h'.pre q (mem_eraseIdx_sub hq)
        · exact h
    · exact h
  | prefKeepAlive now t =>
    simp only [step]; split
    · exact h.change (change_prefetchKeepAlive cfg h.db h.ok now t _)
    · exact h
  | delete now a =>
    simp only [step]; split
    · exact h.change (change_queueDelete h.db h.ok now a _)
    · exact h
  | claim w b now =>
    simp only [step]; split
    · cases hc : claimSelect cfg w b now s.locked s.db with
      | none => exact h
      | some c =>
        obtain ⟨_, _, _, hl, ⟨j, hj, he⟩, _⟩ := claimSelect_spec hc
        exact (h.change (change_claimCommit cfg h.db h.ok c (fun j' hj' => by
          rw [hj] at hj'; cases hj'; exact claimable_unfinished (eligible_claimable he)) _ hl)).withHeld _
    · exact h
  | claimSelect w b now =>
    simp only [step]; split
    · next hg =>
      cases hc : claimSelect cfg w b now s.locked s.db with
      | none => exact h
      | some c =>
        obtain ⟨hw, hb, hn, hl, ⟨j, hj, he⟩, _⟩ := claimSelect_spec hc
        refine ⟨h.db, h.ok, h.fin, h.pre, ?_, ?_⟩
        · show (List.map (·.job) (s.claims ++ [c])).Nodup
          rw [List.map_append, List.nodup_append]
          refine ⟨h.lck, by simp, ?_⟩
          intro x hx y hy
          simp only [List.map_cons, List.map_nil, List.mem_singleton] at hy
          subst hy
          rintro rfl
          exact hl hx
        · intro c' hc'
          rcases List.mem_append.1 hc' with hc' | hc'
          · exact h.clm c' hc'
          · simp only [List.mem_singleton] at hc'; subst hc'
            refine ⟨hn ▸ hg.1, j, hj, ?_, ?_⟩
            · rw [hn]; exact eligible_claimable he
            · rw [hb]
              have := eligible_backend he
              cases b <;> exact this
    · exact h
  | claimCommit k =>
    simp only [step]
    cases hk : s.claims[k]? with
    | none => exact h
    | some c =>
      dsimp only
      obtain ⟨_, j, hj, hcl, _⟩ := h.clm c (List.mem_of_getElem? hk)
      have hs : SInv { s with claims := s.claims.eraseIdx k } := by
        refine ⟨h.db, h.ok, h.fin, h.pre, ?_, fun c' hc' => h.clm c' (mem_eraseIdx_sub hc')⟩
        show (List.map (·.job) (s.claims.eraseIdx k)).Nodup
        rw [map_eraseIdx]
        exact List.Pairwise.sublist (List.eraseIdx_sublist _ _) h.lck
      have hnl : c.job ∉ Sys.locked { s with claims := s.claims.eraseIdx k } := by
        show c.job ∉ List.map (·.job) (s.claims.eraseIdx k)
        rw [map_eraseIdx]
        exact nodup_eraseIdx_not_mem h.lck (by rw [Sys.locked, List.getElem?_map, hk]; rfl)
      exact (hs.change (change_claimCommit cfg h.db h.ok c (fun j' hj' => by
        rw [hj] at hj'; cases hj'; exact claimable_unfinished hcl) _ hnl)).withHeld _
  | trigger w i b =>
    simp only [step]; split
    · next hg => exact h.change (change_saveTrigger h.db h.ok w i b _ hg.2)
    · exact h
  | poll now w i p =>
    simp only [step]; split
    · next hg =>
      split
      · split
        · exact h.change (change_pollCopy cfg h.db h.ok now w i p _ hg.2.2)
        · exact h
      · exact h
    · exact h
  | heartbeat now w i =>
    simp only [step]; split
    · next hg =>
      split
      · split
        · exact h
        · exact h.change (change_extendDelete cfg h.db h.ok now w i _ hg.2.2)
      · exact h
    · exact h
  | beginDelete now w i =>
    simp only [step]; split
    · split
      · split
        · exact h
        · exact h.change (change_beginDelete h.db h.ok now i _)
      · exact h
    · exact h
  | endDelete now w i =>
    simp only [step]; split
    · next hg =>
      split
      · split
        · exact h
        · exact h.change (change_completeDelete cfg h.db h.ok now w i _ hg.2.2)
      · exact h
    · exact h
  | fail w i =>
    simp only [step]; split
    · next hg => exact h.change (change_failById h.db h.ok w i _ hg.2)
    · exact h

theorem sinv_init : SInv {} := by
  refine ⟨⟨?_, ?_, ?_, ?_, ?_, ?_, ?_⟩, by decide, ?_, ?_, by simp [Sys.locked], ?_⟩ <;> simp

theorem sinv_run (cfg : Cfg) : ∀ (ops : List Op) (s : Sys), SInv s → SInv (run cfg s ops)
  | [], _, h => h
  | o :: os, s, h => sinv_run cfg os _ (sinv_step cfg s h o)

end Verif.Tiering
