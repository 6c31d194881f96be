import Verif.Tiering.JobProps

/-!
# Tiering service: limits on running jobs (C64)
-/
namespace Verif.Tiering

/-! ## Specification -/

/-- Workers are timely: whenever a worker polls a transfer or sends a heartbeat for a job in
progress, the job's lease has not ended. -/
def Timely (cfg : Cfg) : Sys → List Op → Prop
  | _, [] => True
  | s, o :: os =>
    (∀ (i : Nat) (j : Job) (e : Nat), o.beats i = true → s.db.jobs[i]? = some j → j.status = .processing →
      j.expAt = some e → s.clk ≤ e) ∧ Timely cfg (step cfg s o) os

/-- No claim is interleaved with other transactions. -/
def AtomicClaims (ops : List Op) : Prop := ∀ w b now, Op.claimSelect w b now ∉ ops

/-! ## Counting -/

theorem countP_le_idx {α β} (p : α → Bool) (q : β → Bool) : ∀ (l : List α) (l' : List β),
    (∀ (i : Nat) (y : β), l'[i]? = some y → q y = true → ∃ x, l[i]? = some x ∧ p x = true) →
    l'.countP q ≤ l.countP p
  | l, [], _ => by simp
  | [], y :: ys, h => by
    have : (y :: ys).countP q = 0 := by
      rw [List.countP_eq_zero]
      intro z hz hq
      obtain ⟨i, hi⟩ := mem_getElem? hz
      obtain ⟨x, hx, _⟩ := h i z hi hq
      simp at hx
    omega
  | x :: xs, y :: ys, h => by
    have ih := countP_le_idx p q xs ys fun i z hz hq => by
      obtain ⟨v, hv, hp⟩ := h (i + 1) z (by simpa using hz) hq
      exact ⟨v, by simpa using hv, hp⟩
    rw [List.countP_cons, List.countP_cons]
    by_cases hq : q y = true
    · obtain ⟨v, hv, hp⟩ := h 0 y rfl hq
      simp at hv; subst hv
      simp [hq, hp]; exact ih
    · simp [hq]; omega

theorem countP_le_idx_succ {α β} (p : α → Bool) (q : β → Bool) : ∀ (l : List α) (l' : List β) (k : Nat),
    (∀ (i : Nat) (y : β), i ≠ k → l'[i]? = some y → q y = true → ∃ x, l[i]? = some x ∧ p x = true) →
    l'.countP q ≤ l.countP p + 1
  | l, [], _, _ => by simp
  | [], y :: ys, k, h => by
    cases k with
    | zero =>
      have : ys.countP q = 0 := by
        rw [List.countP_eq_zero]
        intro z hz hq
        obtain ⟨i, hi⟩ := mem_getElem? hz
        obtain ⟨x, hx, _⟩ := h (i + 1) z (by omega) (by simpa using hi) hq
        simp at hx
      rw [List.countP_cons, this]
      split <;> simp
    | succ k =>
      have ih := countP_le_idx_succ p q [] ys k fun i z hi hz hq => by
        obtain ⟨v, hv, hp⟩ := h (i + 1) z (by omega) (by simpa using hz) hq
        simp at hv
      have : q y ≠ true := fun hq => by
        obtain ⟨v, hv, hp⟩ := h 0 y (by omega) rfl hq
        simp at hv
      rw [List.countP_cons]
      simp [this]; simpa using ih
  | x :: xs, y :: ys, k, h => by
    cases k with
    | zero =>
      have ih := countP_le_idx p q xs ys fun i z hz hq => by
        obtain ⟨v, hv, hp⟩ := h (i + 1) z (by omega) (by simpa using hz) hq
        exact ⟨v, by simpa using hv, hp⟩
      rw [List.countP_cons, List.countP_cons]
      split <;> split <;> omega
    | succ k =>
      have ih := countP_le_idx_succ p q xs ys k fun i z hi hz hq => by
        obtain ⟨v, hv, hp⟩ := h (i + 1) z (by omega) (by simpa using hz) hq
        exact ⟨v, by simpa using hv, hp⟩
      rw [List.countP_cons, List.countP_cons]
      by_cases hq : q y = true
      · obtain ⟨v, hv, hp⟩ := h 0 y (by omega) rfl hq
        simp at hv; subst hv
        simp [hq, hp]; exact ih
      · simp [hq]; omega

/-! ## Running jobs through a step -/

theorem TpChange.keeps {cfg s o t x x'} (h : TpChange cfg s o t x x') :
    x'.asset = x.asset ∧ x'.backend = x.backend := by
  cases h <;> exact ⟨rfl, rfl⟩

theorem JobFor_some (d : DB) (b : Nat) (j : Job) : JobFor d (some b) j ↔ d.backendOf j = some b := by
  unfold JobFor DB.backendOf
  cases j.target <;> simp

/-- A job that is running on `b` after a timely step was so before, or has just been claimed. -/
theorem running_step {cfg : Cfg} {s : Sys} (h : SInv s) {o : Op}
    (ht : ∀ (i : Nat) (j : Job) (e : Nat), o.beats i = true → s.db.jobs[i]? = some j → j.status = .processing →
      j.expAt = some e → s.clk ≤ e) (i : Nat) (j' : Job) (hj' : (step cfg s o).db.jobs[i]? = some j')
    (hr : Running (step cfg s o).clk j') :
    ∃ j, s.db.jobs[i]? = some j ∧ j'.asset = j.asset ∧ j'.target = j.target ∧
      (Running s.clk j ∨ ∃ c, claimOf cfg s o = some c ∧ c.job = i) := by
  rcases Nat.lt_or_ge i s.db.jobs.length with hlt | hge
  · have hj := List.getElem?_eq_getElem hlt
    obtain ⟨j2, hj2, hc⟩ := job_step cfg s h o i _ hj
    rw [hj'] at hj2; cases hj2
    obtain ⟨k1, _, k3, _⟩ := hc.keeps
    refine ⟨_, hj, k1, k3, ?_⟩
    have hclk := clk_step cfg s o
    obtain ⟨hs', e', he', hle⟩ := hr
    cases hc with
    | same => exact Or.inl ⟨hs', e', he', Nat.le_trans hclk hle⟩
    | claimed c hc hi _ _ => exact Or.inr ⟨c, hc, hi⟩
    | extended w now _ hb _ hs hw =>
      obtain ⟨hex, _⟩ := h.db.exp i _ hj hs
      obtain ⟨e, he⟩ := Option.isSome_iff_exists.1 hex
      exact Or.inl ⟨hs, e, he, ht i _ e hb hj hs he⟩
    | triggered w _ hs _ => exact Or.inl ⟨hs, e', he', Nat.le_trans hclk hle⟩
    | completed _ _ _ _ => simp at hs'
    | failed _ _ _ _ => simp at hs'
  · have := (job_new cfg s h o i j' hj' hge).1
    rw [hr.1] at this; cases this

theorem backendOf_step {cfg : Cfg} {s : Sys} (h : SInv s) (o : Op) (i : Nat) (j j' : Job)
    (hj : s.db.jobs[i]? = some j) (ht : j'.target = j.target) :
    (step cfg s o).db.backendOf j' = s.db.backendOf j := by
  unfold DB.backendOf
  rw [ht]
  rcases h.db.tgt i j hj with ⟨_, e⟩ | ⟨_, t, x, e, hx, _⟩
  · rw [e]
  · rw [e]
    obtain ⟨x', hx', hc⟩ := tp_step cfg s h o t x hx
    simp [hx, hx', hc.keeps.2]

/-- The claims in flight that hold backend `b`. -/
def claimsOn (s : Sys) (b : Nat) : Nat := s.claims.countP fun c => decide (c.backend = some b)

theorem activeCount_anti (d : DB) (b now clk : Nat) (h : now ≤ clk) : activeCount d b clk ≤ activeCount d b now := by
  unfold activeCount
  apply List.countP_mono_left
  intro j _ hp
  rw [Bool.and_eq_true, running_iff] at hp ⊢
  obtain ⟨⟨hs, e, he, hle⟩, hb⟩ := hp
  exact ⟨⟨hs, e, he, Nat.le_trans h hle⟩, hb⟩

theorem claims_step {cfg : Cfg} {s : Sys} {o : Op} : (step cfg s o).claims = s.claims ∨
    (∃ w b now c, o = .claimSelect w b now ∧ s.backendLocked b = false ∧ now ≤ s.clk ∧
      claimSelect cfg w b now s.locked s.db = some c ∧ (step cfg s o).claims = s.claims ++ [c] ∧
      (step cfg s o).db = s.db ∧ (step cfg s o).clk = s.clk) ∨
    (∃ k c, o = .claimCommit k ∧ s.claims[k]? = some c ∧ (step cfg s o).claims = s.claims.eraseIdx k) := by
  cases o with
  | claimSelect w b now =>
    simp only [step]
    split
    · next hg =>
      split
      · next c hc => exact Or.inr (Or.inl ⟨w, b, now, c, rfl, hg.2, hg.1, hc, rfl, rfl, rfl⟩)
      · exact Or.inl rfl
    · exact Or.inl rfl
  | claimCommit k =>
    simp only [step]
    split
    · next c hc => exact Or.inr (Or.inr ⟨k, c, rfl, hc, rfl⟩)
    · exact Or.inl rfl
  | _ =>
    left
    simp only [step]
    repeat' split
    all_goals rfl

theorem countP_eraseIdx {α} (p : α → Bool) : ∀ (l : List α) (k : Nat) (x : α), l[k]? = some x →
    (l.eraseIdx k).countP p + (if p x then 1 else 0) = l.countP p
  | [], k, x, h => by simp at h
  | y :: ys, 0, x, h => by simp at h; subst h; simp [List.countP_cons]
  | y :: ys, k + 1, x, h => by
    simp at h
    have ih := countP_eraseIdx p ys k x h
    rw [List.eraseIdx_cons_succ, List.countP_cons, List.countP_cons]
    omega

theorem capacity_step {cfg : Cfg} {s : Sys} (h : SInv s) {o : Op}
    (ht : ∀ (i : Nat) (j : Job) (e : Nat), o.beats i = true → s.db.jobs[i]? = some j → j.status = .processing →
      j.expAt = some e → s.clk ≤ e) (b : Nat)
    (hc : activeCount s.db b s.clk + claimsOn s b ≤ cfg.maxActive) :
    activeCount (step cfg s o).db b (step cfg s o).clk + claimsOn (step cfg s o) b ≤ cfg.maxActive := by
  have hpt : ∀ (i : Nat) (j' : Job), (step cfg s o).db.jobs[i]? = some j' →
      (j'.running (step cfg s o).clk && decide ((step cfg s o).db.backendOf j' = some b)) = true →
      (∃ j, s.db.jobs[i]? = some j ∧ (j.running s.clk && decide (s.db.backendOf j = some b)) = true) ∨
      (∃ c j, claimOf cfg s o = some c ∧ c.job = i ∧ s.db.jobs[i]? = some j ∧ s.db.backendOf j = some b) := by
    intro i j' hj' hp
    rw [Bool.and_eq_true, running_iff, decide_eq_true_iff] at hp
    obtain ⟨j, hj, _, htg, hx⟩ := running_step h ht i j' hj' hp.1
    have hb := backendOf_step (cfg := cfg) h o i j j' hj htg
    rw [hp.2] at hb
    rcases hx with hr | ⟨c, hcl, hi⟩
    · exact Or.inl ⟨j, hj, by rw [Bool.and_eq_true, running_iff, decide_eq_true_iff]; exact ⟨hr, hb.symm⟩⟩
    · exact Or.inr ⟨c, j, hcl, hi, hj, hb.symm⟩
  -- no claim on this backend commits in this step
  have hle : (¬ ∃ c j, claimOf cfg s o = some c ∧ s.db.jobs[c.job]? = some j ∧ s.db.backendOf j = some b) →
      activeCount (step cfg s o).db b (step cfg s o).clk ≤ activeCount s.db b s.clk := by
    intro hn
    refine countP_le_idx _ _ _ _ fun i y hy hq => ?_
    rcases hpt i y hy hq with h' | ⟨c, j, h1, h2, h3, h4⟩
    · exact h'
    · exact absurd ⟨c, j, h1, h2 ▸ h3, h4⟩ hn
  have hsucc : ∀ c, claimOf cfg s o = some c →
      activeCount (step cfg s o).db b (step cfg s o).clk ≤ activeCount s.db b s.clk + 1 := by
    intro c hcl
    refine countP_le_idx_succ _ _ _ _ c.job fun i y hi hy hq => ?_
    rcases hpt i y hy hq with h' | ⟨c', j, h1, h2, _, _⟩
    · exact h'
    · rw [hcl] at h1; cases h1; exact absurd h2.symm hi
  have hlocked : ∀ b', s.backendLocked (some b') = false → claimsOn s b' = 0 := by
    intro b' hb'
    unfold claimsOn
    rw [List.countP_eq_zero]
    intro c hcm hcb
    simp only [Sys.backendLocked, ← Bool.not_eq_true, List.any_eq_true] at hb'
    exact hb' ⟨c, hcm, hcb⟩
  rcases claims_step (cfg := cfg) (s := s) (o := o) with e | ⟨w, b0, now, c, rfl, hbl, hn, hsel, e, e2, e3⟩ |
    ⟨k, c, rfl, hck, e⟩
  · have e' : claimsOn (step cfg s o) b = claimsOn s b := by unfold claimsOn; rw [e]
    rw [e']
    by_cases hx : ∃ c j, claimOf cfg s o = some c ∧ s.db.jobs[c.job]? = some j ∧ s.db.backendOf j = some b
    · obtain ⟨c, j, hcl, hj, hjb⟩ := hx
      have h1 := hsucc c hcl
      cases o <;> simp only [claimOf] at hcl <;> first | (cases hcl; done) | skip
      · -- an atomic claim
        rename_i w b0 now
        split at hcl
        · next hg =>
          obtain ⟨_, _, _, _, ⟨j0, hj0, hel⟩, hcap⟩ := claimSelect_spec hcl
          rw [hj] at hj0; cases hj0
          have hbk := eligible_backend hel
          cases b0 with
          | none =>
            simp only at hbk
            simp [DB.backendOf, hbk] at hjb
          | some b1 =>
            simp only at hbk
            rw [hjb] at hbk
            cases hbk
            have := hcap b rfl
            have := activeCount_anti s.db b now s.clk hg.1
            have := hlocked b hg.2
            omega
        · cases hcl
      · -- a claim commit always removes a claim
        rename_i k
        exfalso
        simp only [step, hcl] at e
        have hl := congrArg List.length e
        rw [List.length_eraseIdx] at hl
        have := (List.getElem?_eq_some_iff.1 hcl).1
        rw [if_pos this] at hl
        omega
    · have := hle hx; omega
  · have hx : ¬ ∃ c j, claimOf cfg s (.claimSelect w b0 now) = some c ∧ s.db.jobs[c.job]? = some j ∧
        s.db.backendOf j = some b := by rintro ⟨c, j, h, _⟩; cases h
    obtain ⟨_, hcb, _, _, _, hcap⟩ := claimSelect_spec hsel
    have e' : claimsOn (step cfg s (.claimSelect w b0 now)) b =
        claimsOn s b + (if c.backend = some b then 1 else 0) := by
      unfold claimsOn; rw [e, List.countP_append]; simp [List.countP_cons]
    rw [e', e2, e3]
    split
    · next hb =>
      rw [hcb] at hb; subst hb
      have := hcap b rfl
      have := activeCount_anti s.db b now s.clk hn
      have := hlocked b hbl
      omega
    · omega
  · obtain ⟨_, j, hj, _, hjb⟩ := h.clm c (List.mem_of_getElem? hck)
    have herase := countP_eraseIdx (fun c : Claim => decide (c.backend = some b)) s.claims k c hck
    have e' : claimsOn (step cfg s (.claimCommit k)) b + (if c.backend = some b then 1 else 0) = claimsOn s b := by
      unfold claimsOn; rw [e]; simpa using herase
    by_cases hb : c.backend = some b
    · rw [if_pos hb] at e'
      have := hsucc c hck
      omega
    · rw [if_neg hb] at e'
      have := hle (by
        rintro ⟨c', j', hc', hj', hb'⟩
        have hc'' : s.claims[k]? = some c' := hc'
        rw [hck] at hc''; cases hc''
        rw [hj] at hj'; cases hj'
        cases hcb : c.backend with
        | none =>
          rw [hcb] at hjb
          simp only at hjb
          simp [DB.backendOf, hjb] at hb'
        | some b1 =>
          rw [hcb] at hjb
          simp only at hjb
          rw [hjb] at hb'; cases hb'
          exact hb hcb)
      omega

theorem capacity_run {cfg : Cfg} (b : Nat) : ∀ (ops : List Op) (s : Sys), SInv s → Timely cfg s ops →
    activeCount s.db b s.clk + claimsOn s b ≤ cfg.maxActive →
    activeCount (run cfg s ops).db b (run cfg s ops).clk + claimsOn (run cfg s ops) b ≤ cfg.maxActive
  | [], _, _, _, hc => hc
  | o :: os, s, h, ht, hc => capacity_run b os _ (sinv_step cfg s h o) ht.2 (capacity_step h ht.1 b hc)

/-- C64: with timely workers the number of jobs running on a backend never exceeds the configured
limit, for any number of workers and any interleaving of their claim transactions. -/
theorem C64_capacity_partial (cfg : Cfg) (ops : List Op) (ht : Timely cfg {} ops) (b : Nat) :
    runningOn (run cfg {} ops).db b (run cfg {} ops).clk ≤ cfg.maxActive := by
  have := capacity_run (cfg := cfg) b ops {} sinv_init ht (by
    show 0 + 0 ≤ cfg.maxActive; omega)
  rw [← runningOn_eq]
  omega

theorem one_per_asset_run {cfg : Cfg} : ∀ (ops : List Op) (s : Sys), SInv s → Timely cfg s ops → AtomicClaims ops →
    s.claims = [] →
    (∀ (i k : Nat) (x y : Job), s.db.jobs[i]? = some x → s.db.jobs[k]? = some y → Running s.clk x →
      Running s.clk y → x.asset = y.asset → i = k) →
    (∀ (i k : Nat) (x y : Job), (run cfg s ops).db.jobs[i]? = some x → (run cfg s ops).db.jobs[k]? = some y →
      Running (run cfg s ops).clk x → Running (run cfg s ops).clk y → x.asset = y.asset → i = k)
  | [], _, _, _, _, _, hu => hu
  | o :: os, s, h, ht, hat, hcl, hu => by
    have hcl' : (step cfg s o).claims = [] := by
      rcases claims_step (cfg := cfg) (s := s) (o := o) with e | ⟨w, b0, now, c, rfl, _⟩ | ⟨k, c, rfl, hck, _⟩
      · rw [e, hcl]
      · exact absurd (List.mem_cons_self ..) (hat w b0 now)
      · rw [hcl] at hck; simp at hck
    refine one_per_asset_run os _ (sinv_step cfg s h o) ht.2
      (fun w b now hm => hat w b now (List.mem_cons_of_mem _ hm)) hcl' ?_
    intro i k x y hx hy rx ry hxy
    obtain ⟨x0, hx0, ax, _, hxr⟩ := running_step h ht.1 i x hx rx
    obtain ⟨y0, hy0, ay, _, hyr⟩ := running_step h ht.1 k y hy ry
    have free : ∀ c, claimOf cfg s o = some c → ∀ (i k : Nat) (x0 y0 : Job), s.db.jobs[i]? = some x0 →
        s.db.jobs[k]? = some y0 → c.job = i → Running s.clk y0 → x0.asset = y0.asset → False := by
      intro c hc i k x0 y0 hx0 hy0 hi hr he
      cases o <;> simp only [claimOf] at hc <;> first | (cases hc; done) | skip
      · split at hc
        · next w b0 now hg =>
          obtain ⟨_, _, _, _, ⟨j0, hj0, hel⟩, _⟩ := claimSelect_spec hc
          rw [hi, hx0] at hj0; cases hj0
          rw [eligible_iff] at hel
          obtain ⟨hs, e, hex, hle⟩ := hr
          exact hel.2.2 ⟨y0, List.mem_of_getElem? hy0, ⟨hs, e, hex, Nat.le_trans hg.1 hle⟩, he.symm⟩
        · cases hc
      · rw [hcl] at hc; simp at hc
    rcases hxr with hxr | ⟨c, hc, hi⟩ <;> rcases hyr with hyr | ⟨c', hc', hi'⟩
    · exact hu i k x0 y0 hx0 hy0 hxr hyr (by rw [← ax, ← ay, hxy])
    · exact (free c' hc' k i y0 x0 hy0 hx0 hi' hxr (by rw [← ax, ← ay, hxy])).elim
    · exact (free c hc i k x0 y0 hx0 hy0 hi hyr (by rw [← ax, ← ay, hxy])).elim
    · rw [hc] at hc'; cases hc'; exact hi.symm.trans hi'

/-- C64: with timely workers, and claims that do not overlap, at most one job runs on an asset at
any time, so that a copy of a checkpoint and its deletion never run together. -/
theorem C64_one_running_per_asset_partial (cfg : Cfg) (ops : List Op) (ht : Timely cfg {} ops) (hat : AtomicClaims ops)
    (i k : Nat) (x y : Job) (hx : (run cfg {} ops).db.jobs[i]? = some x) (hy : (run cfg {} ops).db.jobs[k]? = some y)
    (rx : Running (run cfg {} ops).clk x) (ry : Running (run cfg {} ops).clk y) (he : x.asset = y.asset) : i = k :=
  one_per_asset_run ops {} sinv_init ht hat rfl (fun i k x y hx => by simp at hx) i k x y hx hy rx ry he

theorem C64_nonvacuous :
    let ops : List Op := [.reserve 0 7 0, .reserve 0 8 0, .finRead 0, .finWrite 0 0, .finTrigger 0 1 0,
      .finRead 1, .finWrite 0 0, .finTrigger 0 1 0, .claim 5 (some 1) 0, .trigger 5 0 true, .tick 10,
      .poll 10 5 0 .running, .claim 6 (some 1) 10]
    Timely cfg0 {} ops ∧ AtomicClaims ops ∧ runningOn (run cfg0 {} ops).db 1 (run cfg0 {} ops).clk = 1 := by
  refine ⟨?_, ?_, by decide⟩
  · simp only [Timely, Op.beats]
    refine ⟨?_, ?_, ?_, ?_, ?_, ?_, ?_, ?_, ?_, ?_, ?_, ?_, ?_, trivial⟩
    all_goals first | (intro i j e h; cases h; done) | skip
    intro i j e h hj _ he
    simp at h; subst h
    have : (some j : Option Job) = some
        { asset := 0, kind := .copy, target := some 2, createdAt := 0, status := .processing,
          expAt := some 10, owner := some 5, hasReq := true } := by rw [← hj]; decide
    cases this
    cases he
    decide
  · intro w b now
    simp

/-- C64 (finding): a worker that was suspended past its lease revives it: the ownership test does not
look at the lease, so that after another job has been claimed in the meantime the backend runs more
jobs than the limit allows. -/
theorem C64_late_poll_fails : ∃ ops, AtomicClaims ops ∧
    runningOn (run cfg0 {} ops).db 1 (run cfg0 {} ops).clk > cfg0.maxActive := by
  refine ⟨[.reserve 0 7 0, .reserve 0 8 0, .finRead 0, .finWrite 0 0, .finTrigger 0 1 0, .prefRead 0 2,
      .prefCheck 0, .prefCommit 0 0, .finRead 1, .finWrite 0 0, .finTrigger 0 1 0, .claim 4 (some 2) 0,
      .claim 5 (some 1) 0, .trigger 4 1 true, .trigger 5 2 true, .tick 9, .poll 9 4 1 .success, .tick 2,
      .claim 6 (some 1) 11, .poll 11 5 2 .running], ?_, by decide⟩
  intro w b now; simp

/-- C64 (finding): claims on different backends are not serialized, and both look for running jobs
on the asset before either commits: two copies of one checkpoint run at once, with timely workers. -/
theorem C64_two_per_asset_fails : ∃ ops, Timely cfg0 {} ops ∧
    ∃ (x y : Job), (run cfg0 {} ops).db.jobs[0]? = some x ∧ (run cfg0 {} ops).db.jobs[1]? = some y ∧
      Running (run cfg0 {} ops).clk x ∧ Running (run cfg0 {} ops).clk y ∧ x.asset = y.asset := by
  refine ⟨[.reserve 0 7 0, .finRead 0, .finWrite 0 0, .finTrigger 0 1 0, .prefRead 0 2, .prefCheck 0,
    .prefCommit 0 0, .claimSelect 5 (some 1) 0, .claimSelect 6 (some 2) 0, .claimCommit 0, .claimCommit 0], ?_, ?_⟩
  · simp only [Timely, Op.beats]
    refine ⟨?_, ?_, ?_, ?_, ?_, ?_, ?_, ?_, ?_, ?_, ?_, trivial⟩
    all_goals (intro i j e h; cases h)
  · exact ⟨_, _, rfl, rfl, ⟨rfl, 10, rfl, by decide⟩, ⟨rfl, 10, rfl, by decide⟩, rfl⟩

/-- C64 (finding): the same race lets a checkpoint be deleted while a copy of it is running. -/
theorem C64_copy_during_delete_fails : ∃ ops, Timely cfg0 {} ops ∧
    ∃ (x y : Job), (run cfg0 {} ops).db.jobs[0]? = some x ∧ (run cfg0 {} ops).db.jobs[1]? = some y ∧
      x.kind = .copy ∧ y.kind = .delAll ∧
      Running (run cfg0 {} ops).clk x ∧ Running (run cfg0 {} ops).clk y ∧ x.asset = y.asset := by
  refine ⟨[.reserve 0 7 0, .finRead 0, .finWrite 0 0, .finTrigger 0 1 0, .delete 0 0,
    .claimSelect 5 (some 1) 0, .claimSelect 6 none 0, .claimCommit 0, .claimCommit 0], ?_, ?_⟩
  · simp only [Timely, Op.beats]
    refine ⟨?_, ?_, ?_, ?_, ?_, ?_, ?_, ?_, ?_, trivial⟩
    all_goals (intro i j e h; cases h)
  · exact ⟨_, _, rfl, rfl, rfl, rfl, ⟨rfl, 10, rfl, by decide⟩, ⟨rfl, 10, rfl, by decide⟩, rfl⟩

end Verif.Tiering
