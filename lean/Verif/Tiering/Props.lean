import Verif.Tiering.RowLemmas

/-!
# Tiering service: reservations, jobs, readiness, deletion, prefetching (C62, C63, C65, C66, C67)

Executions start from the empty database and are any lists of operations.
-/
namespace Verif.Tiering

/-- The states that some execution leads to. -/
def Reach (cfg : Cfg) (s : Sys) : Prop := ∃ ops, run cfg {} ops = s

theorem Reach.inv {cfg : Cfg} {s : Sys} (h : Reach cfg s) : SInv s := by
  obtain ⟨ops, rfl⟩ := h; exact sinv_run cfg ops {} sinv_init

theorem run_append (cfg : Cfg) : ∀ (xs ys : List Op) (s : Sys), run cfg s (xs ++ ys) = run cfg (run cfg s xs) ys
  | [], _, _ => rfl
  | x :: xs, ys, s => run_append cfg xs ys (step cfg s x)

theorem Reach.run {cfg : Cfg} {s : Sys} (h : Reach cfg s) (ops : List Op) : Reach cfg (run cfg s ops) := by
  obtain ⟨xs, rfl⟩ := h; exact ⟨xs ++ ops, run_append cfg xs ops {}⟩

/-- A configuration for the examples: one running job per backend, backend 0 is Lustre. -/
def cfg0 : Cfg := { lease := 10, keepAlive := 5, maxActive := 1, lustre := fun b => b == 0, lustreTtl := 60 }

/-! ## Specification -/

/-- ACTIVE_WRITE or STORED. -/
def Live (r : Asset) : Prop := r.state = .active ∨ r.state = .stored

/-- PENDING, IN_PROGRESS or READY. -/
def Active (x : TierPath) : Prop := x.state = .pending ∨ x.state = .inProgress ∨ x.state = .ready

/-- No deletion of asset `a` has ever been queued. -/
def NeverDeleted (d : DB) (a : Nat) : Prop := ∀ j ∈ d.jobs, j.asset = a → j.kind ≠ .delAll

/-- Nobody calls Delete on asset `a`. -/
def NoDelete (ops : List Op) (a : Nat) : Prop := ∀ now, Op.delete now a ∉ ops

/-- A deletion of asset `a` is queued or in progress. -/
def DeletePending (d : DB) (a : Nat) : Prop :=
  ∃ j ∈ d.jobs, j.asset = a ∧ j.kind = .delAll ∧ (j.status = .queued ∨ j.status = .processing)

/-- Waiting for a worker: queued, or in progress with a lease that ended before `now`. -/
def Waiting (now : Nat) (j : Job) : Prop :=
  j.status = .queued ∨ (j.status = .processing ∧ ∃ e, j.expAt = some e ∧ e < now)

/-- In progress with a lease that has not ended. -/
def Running (now : Nat) (j : Job) : Prop := j.status = .processing ∧ ∃ e, j.expAt = some e ∧ now ≤ e

/-- The work a worker for `b` asks for: copies onto backend `b`, or deletions. -/
def JobFor (d : DB) (b : Option Nat) (j : Job) : Prop :=
  match b with
  | none => j.target = none
  | some b => ∃ t x, j.target = some t ∧ d.tps[t]? = some x ∧ x.backend = b

theorem live_iff (r : Asset) : r.live = true ↔ Live r := by
  unfold Asset.live Live; cases r.state <;> simp

theorem active_iff (x : TierPath) : x.active = true ↔ Active x := by
  unfold TierPath.active Active; cases x.state <;> simp

theorem unfinished_iff (j : Job) : j.unfinished = true ↔ j.status = .queued ∨ j.status = .processing := by
  unfold Job.unfinished; cases j.status <;> decide

theorem deletePending_iff (d : DB) (a : Nat) : deletePending d a = true ↔ DeletePending d a := by
  unfold deletePending DeletePending
  simp only [List.any_eq_true, Bool.and_eq_true, decide_eq_true_iff, unfinished_iff]
  constructor
  · rintro ⟨j, hj, ⟨h1, h2⟩, h3⟩; exact ⟨j, hj, h1, h2, h3⟩
  · rintro ⟨j, hj, h1, h2, h3⟩; exact ⟨j, hj, ⟨h1, h2⟩, h3⟩

theorem claimable_iff (now : Nat) (j : Job) : j.claimable now = true ↔ Waiting now j := by
  unfold Job.claimable Waiting
  cases j.expAt <;> simp

theorem running_iff (now : Nat) (j : Job) : j.running now = true ↔ Running now j := by
  unfold Job.running Running
  cases j.expAt <;> simp

theorem eligible_iff (d : DB) (b : Option Nat) (now : Nat) (j : Job) : eligible d b now j = true ↔
    Waiting now j ∧ JobFor d b j ∧ ¬ ∃ k ∈ d.jobs, Running now k ∧ k.asset = j.asset := by
  unfold eligible
  rw [Bool.and_eq_true, Bool.and_eq_true, claimable_iff]
  have e1 : ((!d.jobs.any fun k => k.running now && decide (k.asset = j.asset)) = true) ↔
      ¬ ∃ k ∈ d.jobs, Running now k ∧ k.asset = j.asset := by
    rw [Bool.not_eq_true', ← Bool.not_eq_true, List.any_eq_true]
    simp only [Bool.and_eq_true, running_iff, decide_eq_true_iff]
  rw [e1]
  cases b with
  | none =>
    simp only [JobFor, decide_eq_true_iff]
    constructor
    · rintro ⟨⟨h1, h2⟩, h3⟩; exact ⟨h1, h3, h2⟩
    · rintro ⟨h1, h3, h2⟩; exact ⟨⟨h1, h2⟩, h3⟩
  | some b =>
    have e2 : d.backendOf j = some b ↔ JobFor d (some b) j := by
      unfold JobFor DB.backendOf
      cases j.target <;> simp
    simp only [decide_eq_true_iff, e2]
    constructor
    · rintro ⟨⟨h1, h2⟩, h3⟩; exact ⟨h1, h3, h2⟩
    · rintro ⟨h1, h3, h2⟩; exact ⟨⟨h1, h2⟩, h3⟩

/-! ## C62: reservations -/

/-- C62: in every reachable state at most one asset in ACTIVE_WRITE or STORED has a given path. -/
theorem C62_one_live_per_path (cfg : Cfg) (s : Sys) (h : Reach cfg s) (a b : Nat) (ra rb : Asset)
    (ha : s.db.assets[a]? = some ra) (hb : s.db.assets[b]? = some rb) (la : Live ra) (lb : Live rb)
    (hp : ra.path = rb.path) : a = b :=
  ((ok_iff _).1 h.inv.ok).1 a b ra rb ha hb ((live_iff _).2 la) ((live_iff _).2 lb) hp

theorem liveAt_some {d : DB} {p a : Nat} (h : d.liveAt p = some a) :
    ∃ r, d.assets[a]? = some r ∧ Live r ∧ r.path = p := by
  unfold DB.liveAt at h
  rw [List.findIdx?_eq_some_iff_getElem] at h
  obtain ⟨hl, hp, _⟩ := h
  rw [Bool.and_eq_true, live_iff] at hp
  exact ⟨_, List.getElem?_eq_getElem hl, hp.1, by simpa using hp.2⟩

theorem liveAt_none {d : DB} {p : Nat} (h : d.liveAt p = none) (a : Nat) (r : Asset)
    (hr : d.assets[a]? = some r) (hl : Live r) : r.path ≠ p := by
  unfold DB.liveAt at h
  rw [List.findIdx?_eq_none_iff] at h
  have := h r (List.mem_of_getElem? hr)
  rw [(live_iff r).2 hl] at this
  simpa using this

/-- The insert of a reservation violates an index exactly when an asset is live at the path. -/
theorem reserve_ok_iff {cfg : Cfg} {s : Sys} (h : SInv s) (now p b : Nat) :
    DB.ok { s.db with
      assets := s.db.assets ++ [{ path := p, state := .active, writeExp := some (now + cfg.keepAlive) }]
      tps := s.db.tps ++ [{ asset := s.db.assets.length, backend := b }] } = true ↔
    s.db.liveAt p = none := by
  constructor
  · intro ho
    cases hl : s.db.liveAt p with
    | none => rfl
    | some a =>
      obtain ⟨r, hr, hlv, hp⟩ := liveAt_some hl
      have := ((ok_iff _).1 ho).1 a s.db.assets.length r
        { path := p, state := .active, writeExp := some (now + cfg.keepAlive) }
        (getElem?_append_old hr _) ((getElem?_append_one _ _ _ _).2 (Or.inr ⟨rfl, rfl⟩))
        ((live_iff _).2 hlv) rfl hp
      have := (List.getElem?_eq_some_iff.1 hr).1
      omega
  · intro hn
    rw [ok_iff]
    have hok := (ok_iff _).1 h.ok
    constructor
    · intro i k x y hx hy lx ly e
      rcases (getElem?_append_one _ _ _ _).1 hx with hx' | ⟨rfl, rfl⟩ <;>
        rcases (getElem?_append_one _ _ _ _).1 hy with hy' | ⟨rfl, rfl⟩
      · exact hok.1 i k x y hx' hy' lx ly e
      · exact absurd e (liveAt_none hn i x hx' ((live_iff _).1 lx))
      · exact absurd e.symm (liveAt_none hn k y hy' ((live_iff _).1 ly))
      · rfl
    · intro i k x y hx hy lx ly e1 e2
      rcases (getElem?_append_one _ _ _ _).1 hx with hx' | ⟨rfl, rfl⟩ <;>
        rcases (getElem?_append_one _ _ _ _).1 hy with hy' | ⟨rfl, rfl⟩
      · exact hok.2 i k x y hx' hy' lx ly e1 e2
      · have := h.db.tpa i x hx'
        simp only at e1; omega
      · have := h.db.tpa k y hy'
        simp only at e1; omega
      · rfl

/-- C62: Reserve at a path where an asset is live returns that asset and writes nothing. -/
theorem C62_reserve_existing (cfg : Cfg) (s : Sys) (h : Reach cfg s) (now p b a : Nat) (r : Asset)
    (hr : s.db.assets[a]? = some r) (hl : Live r) (hp : r.path = p) :
    reserve cfg now p b s.db = (s.db, some a) := by
  have hne : s.db.liveAt p ≠ none := fun hn => liveAt_none hn a r hr hl hp
  unfold reserve
  dsimp only
  rw [if_neg (fun ho => hne ((reserve_ok_iff h.inv now p b).1 ho))]
  cases he : s.db.liveAt p with
  | none => exact absurd he hne
  | some a' =>
    obtain ⟨r', hr', hl', hp'⟩ := liveAt_some he
    rw [C62_one_live_per_path cfg s h a' a r' r hr' hr hl' hl (hp'.trans hp.symm)]

/-- C62: Reserve at a path where no asset is live creates a new asset in ACTIVE_WRITE with one
pending tier path on the chosen backend, and changes no other row. -/
theorem C62_reserve_new (cfg : Cfg) (s : Sys) (h : Reach cfg s) (now p b : Nat)
    (hn : ∀ (a : Nat) (r : Asset), s.db.assets[a]? = some r → Live r → r.path ≠ p) :
    reserve cfg now p b s.db =
      ({ assets := s.db.assets ++ [{ path := p, state := .active, writeExp := some (now + cfg.keepAlive) }]
         tps := s.db.tps ++ [{ asset := s.db.assets.length, backend := b, state := .pending }]
         jobs := s.db.jobs }, some s.db.assets.length) := by
  have hne : s.db.liveAt p = none := by
    cases he : s.db.liveAt p with
    | none => rfl
    | some a => obtain ⟨r, hr, hl, hp⟩ := liveAt_some he; exact absurd hp (hn a r hr hl)
  unfold reserve
  dsimp only
  rw [if_pos ((reserve_ok_iff h.inv now p b).2 hne)]

/-- C62: Reserve always succeeds, with an asset that is live at the requested path. -/
theorem C62_reserve_live (cfg : Cfg) (s : Sys) (h : Reach cfg s) (now p b : Nat) :
    ∃ a r, (reserve cfg now p b s.db).2 = some a ∧ (reserve cfg now p b s.db).1.assets[a]? = some r ∧
      Live r ∧ r.path = p := by
  cases he : s.db.liveAt p with
  | none =>
    rw [C62_reserve_new cfg s h now p b (fun a r hr hl => liveAt_none he a r hr hl)]
    exact ⟨_, _, rfl, (getElem?_append_one _ _ _ _).2 (Or.inr ⟨rfl, rfl⟩), Or.inl rfl, rfl⟩
  | some a =>
    obtain ⟨r, hr, hl, hp⟩ := liveAt_some he
    rw [C62_reserve_existing cfg s h now p b a r hr hl hp]
    exact ⟨a, r, rfl, hr, hl, hp⟩

theorem mem_getElem? {α} {l : List α} {x : α} (h : x ∈ l) : ∃ i : Nat, l[i]? = some x :=
  List.mem_iff_getElem?.1 h

theorem JobChange.keeps {cfg s o i j j'} (h : JobChange cfg s o i j j') :
    j'.asset = j.asset ∧ j'.kind = j.kind ∧ j'.target = j.target ∧ j'.createdAt = j.createdAt := by
  cases h <;> exact ⟨rfl, rfl, rfl, rfl⟩

/-- A step that is not a Delete of `a` queues no deletion of `a`. -/
theorem neverDeleted_step {cfg : Cfg} {s : Sys} (h : SInv s) {o : Op} {a : Nat}
    (hn : NeverDeleted s.db a) (ho : ∀ now, o ≠ .delete now a) : NeverDeleted (step cfg s o).db a := by
  intro j' hj' ha hk
  obtain ⟨i, hi⟩ := mem_getElem? hj'
  rcases Nat.lt_or_ge i s.db.jobs.length with hlt | hge
  · obtain ⟨j2, hj2, hc⟩ := job_step cfg s h o i _ (List.getElem?_eq_getElem hlt)
    rw [hi] at hj2; cases hj2
    obtain ⟨e1, e2, _⟩ := hc.keeps
    exact hn _ (List.getElem_mem hlt) (e1 ▸ ha) (e2 ▸ hk)
  · obtain ⟨_, hd⟩ := job_new cfg s h o i j' hi hge
    obtain ⟨now, e⟩ := hd hk
    exact ho now (ha ▸ e)

theorem live_step {cfg : Cfg} {s : Sys} (h : SInv s) {o : Op} {a : Nat} {r : Asset}
    (hn : NeverDeleted s.db a) (hr : s.db.assets[a]? = some r) (hl : Live r) :
    ∃ r', (step cfg s o).db.assets[a]? = some r' ∧ Live r' ∧ r'.path = r.path := by
  obtain ⟨r', hr', hc⟩ := asset_step cfg s h o a r hr
  refine ⟨r', hr', ?_⟩
  cases hc with
  | same => exact ⟨hl, rfl⟩
  | keptAlive _ _ => exact ⟨hl, rfl⟩
  | finalized _ _ _ _ _ _ _ => exact ⟨Or.inr rfl, rfl⟩
  | deleting _ _ _ _ j _ hj hk ha => exact absurd hk (hn j (List.mem_of_getElem? hj) ha)
  | deleted _ _ _ _ j hj hk _ _ ha => exact absurd hk (hn j (List.mem_of_getElem? hj) ha)

theorem live_run {cfg : Cfg} {a : Nat} : ∀ (ops : List Op) (s : Sys) (r : Asset), SInv s → NoDelete ops a →
    NeverDeleted s.db a → s.db.assets[a]? = some r → Live r →
    ∃ r', (run cfg s ops).db.assets[a]? = some r' ∧ Live r' ∧ r'.path = r.path
  | [], s, r, _, _, _, hr, hl => ⟨r, hr, hl, rfl⟩
  | o :: os, s, r, h, hd, hn, hr, hl => by
    obtain ⟨r1, hr1, hl1, hp1⟩ := live_step (cfg := cfg) (o := o) h hn hr hl
    obtain ⟨r2, hr2, hl2, hp2⟩ := live_run os _ r1 (sinv_step cfg s h o)
      (fun now hm => hd now (List.mem_cons_of_mem _ hm))
      (neverDeleted_step h hn fun now e => hd now (by simp [e])) hr1 hl1
    exact ⟨r2, hr2, hl2, hp2.trans hp1⟩

/-- C62: as long as nobody deletes the asset, Reserve at its path returns that same asset, whatever
else happens in between, and writes nothing. -/
theorem C62_reserve_stable (cfg : Cfg) (s : Sys) (h : Reach cfg s) (a : Nat) (r : Asset)
    (hr : s.db.assets[a]? = some r) (hl : Live r) (hnd : NeverDeleted s.db a) (ops : List Op)
    (hops : NoDelete ops a) (now b : Nat) :
    reserve cfg now r.path b (run cfg s ops).db = ((run cfg s ops).db, some a) := by
  obtain ⟨r', hr', hl', hp'⟩ := live_run (cfg := cfg) ops s r h.inv hops hnd hr hl
  exact C62_reserve_existing cfg _ (h.run ops) now r.path b a r' hr' hl' hp'

theorem C62_nonvacuous :
    let s := run cfg0 {} [.reserve 0 7 0, .reserve 0 8 1, .finRead 0, .finWrite 0 0]
    (∃ r, s.db.assets[0]? = some r ∧ Live r ∧ r.path = 7) ∧ NeverDeleted s.db 0 ∧
    (∃ r, s.db.assets[1]? = some r ∧ Live r ∧ r.path = 8) ∧
    (∀ (a : Nat) (r : Asset), s.db.assets[a]? = some r → Live r → r.path ≠ 9) := by
  refine ⟨⟨_, rfl, Or.inr rfl, rfl⟩, ?_, ⟨_, rfl, Or.inl rfl, rfl⟩, ?_⟩
  · intro j hj
    revert j
    decide
  · intro a r hr _
    have hm := List.mem_of_getElem? hr
    revert r
    have : ∀ r ∈ (run cfg0 {} [.reserve 0 7 0, .reserve 0 8 1, .finRead 0, .finWrite 0 0]).db.assets,
        r.path ≠ 9 := by decide
    intro r _ _ hm
    exact this r hm

/-- C62 (finding): a client whose closest backend is not the one the path was reserved on gets the
asset but no tier path to write to (an empty identifier, on which the client library raises), and
the path stays unusable from there until the asset is deleted. -/
theorem C62_other_zone_fails : ∃ ops p b a, let s := run cfg0 {} ops
    (reserve cfg0 0 p b s.db).2 = some a ∧ reserveTp s.db a b = none ∧
    (∃ r, s.db.assets[a]? = some r ∧ r.state = .active) :=
  ⟨[.reserve 0 7 0], 7, 1, 0, by decide, by decide, _, rfl, rfl⟩

/-- C62 (finding): Reserve at the path of a finalized checkpoint succeeds and names the READY tier
path of that checkpoint as the place to write: the call does not distinguish a new reservation
from a checkpoint that is already stored. -/
theorem C62_stored_rereserved_fails : ∃ ops p b a t, let s := run cfg0 {} ops
    reserve cfg0 0 p b s.db = (s.db, some a) ∧ reserveTp s.db a b = some t ∧
    (∃ r, s.db.assets[a]? = some r ∧ r.state = .stored) ∧
    (∃ x, s.db.tps[t]? = some x ∧ x.state = .ready) :=
  ⟨[.reserve 0 7 0, .finRead 0, .finWrite 0 0], 7, 0, 0, 0, by decide, by decide, ⟨_, rfl, rfl⟩, _, rfl, rfl⟩

/-- C62 (finding): an abandoned reservation is never given up.  Whatever happens after Reserve, short
of a Finalize or a Delete of that asset, and however long its write lease has expired, the asset
stays in ACTIVE_WRITE and every Reserve of the path returns it. -/
theorem C62_abandoned_fails (cfg : Cfg) (s : Sys) (h : Reach cfg s) (a : Nat) (r : Asset)
    (hr : s.db.assets[a]? = some r) (hl : r.state = .active) (hnd : NeverDeleted s.db a) (ops : List Op)
    (hops : NoDelete ops a) (hfin : Op.finRead a ∉ ops) (hno : ∀ q ∈ s.fins, q.asset ≠ a) :
    ∃ r', (run cfg s ops).db.assets[a]? = some r' ∧ r'.state = .active ∧ r'.path = r.path := by
  have key : ∀ (ops : List Op) (s : Sys) (r : Asset), SInv s → NoDelete ops a → Op.finRead a ∉ ops →
      NeverDeleted s.db a → (∀ q ∈ s.fins, q.asset ≠ a) → s.db.assets[a]? = some r → r.state = .active →
      ∃ r', (run cfg s ops).db.assets[a]? = some r' ∧ r'.state = .active ∧ r'.path = r.path := by
    intro ops
    induction ops with
    | nil => intro s r _ _ _ _ _ hr hl; exact ⟨r, hr, hl, rfl⟩
    | cons o os ih =>
      intro s r h hd hf hn hq hr hl
      obtain ⟨r1, hr1, hc⟩ := asset_step cfg s h o a r hr
      have hst : r1.state = .active ∧ r1.path = r.path := by
        cases hc with
        | same => exact ⟨hl, rfl⟩
        | keptAlive _ _ => exact ⟨hl, rfl⟩
        | finalized _ k q _ hk _ ha => exact absurd ha (hq q (List.mem_of_getElem? hk))
        | deleting _ _ _ _ j _ hj hk ha => exact absurd hk (hn j (List.mem_of_getElem? hj) ha)
        | deleted _ _ _ _ j hj hk _ _ ha => exact absurd hk (hn j (List.mem_of_getElem? hj) ha)
      have hq' : ∀ q ∈ (step cfg s o).fins, q.asset ≠ a := by
        cases o with
        | finRead b =>
          intro q
          have hb : b ≠ a := fun e => hf (by simp [e])
          simp only [step]
          split
          · next q0 hq0 =>
            intro hm
            rcases List.mem_append.1 hm with hm | hm
            · exact hq q hm
            · simp at hm; subst hm
              unfold finalizeRead at hq0
              dsimp only at hq0
              repeat' split at hq0
              all_goals cases hq0
              exact hb
          · exact hq q
        | finWrite now k =>
          intro q
          simp only [step]
          repeat' split
          · exact hq q
          · rename_i q0 hq0 _ _ _ _
            intro hm
            rcases List.mem_or_eq_of_mem_set hm with hm | rfl
            · exact hq q hm
            · exact hq q0 (List.mem_of_getElem? hq0)
          · intro hm; exact hq q (mem_eraseIdx_sub hm)
          · exact hq q
          · exact hq q
        | finTrigger now l1 k =>
          intro q
          simp only [step]
          repeat' split
          · intro hm; exact hq q (mem_eraseIdx_sub hm)
          all_goals exact hq q
        | _ =>
          intro q
          simp only [step]
          repeat' split
          all_goals exact hq q
      obtain ⟨r2, hr2, hl2, hp2⟩ := ih _ r1 (sinv_step cfg s h o)
        (fun now hm => hd now (List.mem_cons_of_mem _ hm)) (fun hm => hf (List.mem_cons_of_mem _ hm))
        (neverDeleted_step h hn fun now e => hd now (by simp [e])) hq' hr1 hst.1
      exact ⟨r2, hr2, hl2, hp2.trans hst.2⟩
  exact key ops s r h.inv hops hfin hnd hno hr hl

end Verif.Tiering
